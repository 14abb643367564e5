import Verif.Err
import Verif.TD.Targets
import Mathlib.Analysis.SpecialFunctions.Log.Basic

/-!
Model of the policy objectives (`coax/policy_objectives/`), over the reals.

The arrays that enter an objective are lists, one entry per sample: the clipped or unclipped importance weights, the advantages, the recorded
log-propensities `logP` and the log-probabilities `log_pi` of the recorded actions under the current policy (or the values of the q-functions
at the actions of the current policy).  How `log_pi` is computed is modelled in `Verif/Dists`; here it is any list.  NaN is `none`: it arises
only as the mean of an empty batch.
-/

namespace Coax.Pol

/-- An elementwise operation on two one-dimensional `jnp` arrays: an array of length one is broadcast, other different lengths raise.  (`coax/policy_objectives/_ppo_clip.py:76-85`.) -/
def broadcast (f : ℝ → ℝ → ℝ) (a b : List ℝ) : Except Err (List ℝ) :=
  if a.length = b.length then .ok (List.zipWith f a b)
  else match a, b with
    | a, [y] => .ok (a.map (fun x => f x y))
    | [x], b => .ok (b.map (fun y => f x y))
    | _, _ => .error .typeError

/-- `jnp.clip`: `minimum(maximum(x, low), high)`.  (`coax/policy_objectives/_ppo_clip.py:77-80`.) -/
noncomputable def clip (x low high : ℝ) : ℝ := min (max x low) high

/-- `jnp.clip(transition_batch.W, 0.1, 10.)`, e.g. `coax/policy_objectives/_ppo_clip.py:80`. -/
noncomputable def clipW (W : List ℝ) : List ℝ := W.map (fun w => clip w 0.1 10)

/-- `jnp.mean`.  (`coax/policy_objectives/_ppo_clip.py:88`.) -/
noncomputable def mean (l : List ℝ) : Option ℝ := if l = [] then none else some (l.sum / l.length)

/-- `PPOClip.objective_func`, `coax/policy_objectives/_ppo_clip.py:66-88`, from `log_pi` on.  `logP` is an entry of the batch. -/
noncomputable def ppoObjective (epsilon : ℝ) (W Adv logPi logP : List ℝ) : Except Err (Option ℝ) :=
  match broadcast (fun x y => Real.exp (x - y)) logPi logP with
  | .error e => .error e
  | .ok ratio =>
    let ratioClip := ratio.map (fun r => clip r (1 - epsilon) (1 + epsilon))
    let W := clipW W
    if W.length = Adv.length ∧ W.length = ratio.length ∧ W.length = ratioClip.length then
      .ok (mean (List.zipWith (fun w m => w * m) W
        (List.zipWith min (List.zipWith (fun a r => a * r) Adv ratio) (List.zipWith (fun a r => a * r) Adv ratioClip))))
    else .error .assertionError

/-- `VanillaPG.objective_func`, `coax/policy_objectives/_vanilla_pg.py:37-57`, from `log_pi` on. -/
noncomputable def vanillaObjective (W Adv logPi : List ℝ) : Except Err (Option ℝ) :=
  let W := clipW W
  if W.length = Adv.length ∧ W.length = logPi.length then
    .ok (mean (List.zipWith (fun wa l => wa * l) (List.zipWith (fun w a => w * a) W Adv) logPi))
  else .error .assertionError

/-- The end of `DeterministicPG.objective_func`, `coax/policy_objectives/_deterministic_pg.py:106-114`.  `Q` is the output of the forward function
of the target q-function at the mode of the policy; its value transform is not undone (line 104). -/
noncomputable def deterministicObjective (W Q : List ℝ) : Except Err (Option ℝ) :=
  let W := clipW W
  if W.length = Q.length then .ok (mean (List.zipWith (fun w q => w * q) W Q)) else .error .assertionError

/-- `SoftPG.objective_func`, `coax/policy_objectives/_soft_pg.py:33-61`: `Qs` are the outputs of the target q-functions at one sampled action
per state. -/
noncomputable def softObjective (W : List ℝ) (Qs : List (List ℝ)) : Except Err (Option ℝ) :=
  match Coax.TD.stackMin Qs with
  | .error e => .error e
  | .ok Q => deterministicObjective W Q

/-- `SoftPG._check_input_lists`, `coax/policy_objectives/_soft_pg.py:63-71`: `none` is an argument that is no list, an entry of the list says whether it is a
q-function. -/
def checkQTargList : Option (List Bool) → Except Err Unit
  | none => .error .typeError
  | some [] => .error .valueError
  | some l => if l.all id then .ok () else .error .typeError

/-- The metrics of `loss_func`.  (`coax/policy_objectives/_base.py:53-59`.) -/
structure Metrics where
  loss : Option ℝ
  lossBare : Option ℝ
  klDivOld : Option ℝ

/-- `loss_func` of `PolicyObjective`, `coax/policy_objectives/_base.py:45-77`.  `objective` is the result of `objective_func`, `reg` the
values of the regularizer, if there is one. -/
noncomputable def lossFunc (objective : Except Err (Option ℝ)) (W logPi logP : List ℝ) (reg : Option (Except Err (List ℝ))) :
    Except Err (Option ℝ × Metrics) :=
  match objective with
  | .error e => .error e
  | .ok J =>
    let loss := J.map (fun x => -x)
    match broadcast (fun x y => y - x) logPi logP with
    | .error e => .error e
    | .ok diff => match broadcast (fun p d => Real.exp p * d) logP diff with
      | .error e => .error e
      | .ok kl => match reg with
        | none => .ok (loss, ⟨loss, loss, mean kl⟩)
        | some (.error e) => .error e
        | some (.ok reg) => match broadcast (fun w r => w * r) (clipW W) reg with
          | .error e => .error e
          | .ok wr =>
            let loss' := match loss, mean wr with
              | some a, some b => some (a + b)
              | _, _ => none
            .ok (loss', ⟨loss', loss, mean kl⟩)

end Coax.Pol
