/-
Model of src/preprocessing/channel_mixer.rs.
-/
import Verif.Common

namespace Verif.Mixer
open Verif

/-- lines 27-41 (`ChannelMixMode`) -/
inductive Mode where
  | mono | midSide | dominant | center
deriving DecidableEq

/-- The per-frame closures, lines 105-142. -/
def mixOne : Mode → F32 → F32 → F32
  | .mono, l, r => (l + r) * 0.5
  | .midSide, l, r => (l + r) * 0.5
  | .dominant, l, r => if r.abs ≤ l.abs then l else r
  | .center, l, r => (l + r) * 0.5

/-- lines 80-147 (`stereo_to_mono`) -/
def stereoToMono (left right : List F32) (mode : Mode) : R (List F32) :=
  if left.length ≠ right.length then R.err .invalidInput
  else if left = [] then .ok []
  else .ok ((left.zip right).map (fun p => mixOne mode p.1 p.2))

end Verif.Mixer
