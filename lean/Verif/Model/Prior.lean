import Verif.Model.Beat

/-! The prior of the Bayesian tempo update (bayesian.rs), which `update_with_onsets` computes for its own use but does not
let into its result; `Bayes.update` in Model/Beat.lean therefore does not call it. -/

namespace Verif.Beat

/-- bayesian.rs lines 257-272 (`compute_prior`), for the tracker whose current tempo is `bpm`; `PRIOR_SIGMA` is 2 (line 48) -/
def prior (M : Libm) (bpm c : F32) : F32 :=
  let d := (c - bpm).abs
  let s : F32 := 2 * 2
  if s ≤ EPS then 0 else M.exp (-(d * d) / (2 * s))

end Verif.Beat
