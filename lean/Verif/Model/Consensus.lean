/-
Model of src/features/onset/consensus.rs.
-/
import Verif.Common

namespace Verif.Consensus
open Verif

/-- consensus.rs lines 39-48 (`OnsetConsensus`) -/
structure Input where
  energyFlux : List ℕ
  spectralFlux : List ℕ
  hfc : List ℕ
  hpss : List ℕ
deriving DecidableEq, Repr

/-- consensus.rs lines 154-158 (`OnsetWithMethod`) -/
structure Tagged where
  sample : ℕ
  method : ℕ
  weight : F32
deriving DecidableEq

/-- src/features/onset/mod.rs lines 23-35 (`OnsetCandidate`) -/
structure Candidate where
  timeSamples : ℕ
  timeSeconds : F32
  confidence : F32
  votedBy : ℕ
deriving DecidableEq

/-- consensus.rs lines 216-217; the `i32` subtraction panics on overflow (debug semantics). -/
def near (tol : ℕ) (a b : ℕ) : R Bool :=
  let d := asI32 a - asI32 b
  if d < -2 ^ 31 ∨ 2 ^ 31 - 1 < d then R.panic else .ok (decide (d.natAbs ≤ tol))

/-- consensus.rs lines 215-223: is the onset near any member of the cluster (stops at the first) -/
def hits (tol : ℕ) (o : Tagged) : List Tagged → R Bool
  | [] => .ok false
  | e :: es => do if ← near tol o.sample e.sample then pure true else hits tol o es

/-- consensus.rs lines 212-232: first matching cluster, or a new one -/
def addTo (tol : ℕ) (o : Tagged) : List (List Tagged) → R (List (List Tagged))
  | [] => .ok [[o]]
  | c :: cs => do
    if ← hits tol o c then pure ((c ++ [o]) :: cs)
    else
      let r ← addTo tol o cs
      pure (c :: r)

/-- consensus.rs lines 210-233, from the clusters `cs` on -/
def clusterFrom (tol : ℕ) : List Tagged → List (List Tagged) → R (List (List Tagged))
  | [], cs => .ok cs
  | o :: os, cs => do
    let cs' ← addTo tol o cs
    clusterFrom tol os cs'

/-- consensus.rs lines 160-196 -/
def tagAll (inp : Input) (w : ℕ → F32) : List Tagged :=
  inp.energyFlux.map (fun s => ⟨s, 0, w 0⟩) ++ inp.spectralFlux.map (fun s => ⟨s, 1, w 1⟩) ++
  inp.hfc.map (fun s => ⟨s, 2, w 2⟩) ++ inp.hpss.map (fun s => ⟨s, 3, w 3⟩)

/-- consensus.rs lines 238-271 -/
def candidateOf (w : ℕ → F32) (sampleRate : ℕ) (c : List Tagged) : Candidate :=
  let center := (c.map Tagged.sample).sum / c.length
  let total := c.foldl (fun acc o => acc + o.weight) 0
  let voted := ((List.range 4).filter (fun m => c.any (fun o => o.method == m))).length
  let maxW := F32.sum [w 0, w 1, w 2, w 3]
  let conf := if 0 < maxW then F32.clamp (total / maxW) 0 1 else 0
  ⟨center, F32.ofNat center / F32.ofNat sampleRate, conf, voted⟩

/-- consensus.rs lines 111-287 (`vote_onsets`); the weights `[f32; 4]` are the values `w 0 .. w 3`. -/
def voteOnsets (inp : Input) (w : ℕ → F32) (toleranceMs sampleRate : ℕ) : R (List Candidate) :=
  if sampleRate = 0 then R.err .invalidInput
  else if toleranceMs = 0 then R.err .invalidInput
  else if w 0 < 0 ∨ w 1 < 0 ∨ w 2 < 0 ∨ w 3 < 0 then R.err .invalidInput
  else
    let tol := (F32.ofNat toleranceMs / 1000 * F32.ofNat sampleRate).toUsize
    let all := tagAll inp w
    if all = [] then .ok []
    else do
      let cs ← clusterFrom tol (rsort (fun a b => decide (a.sample ≤ b.sample)) all) []
      pure (sortDesc Candidate.confidence (cs.map (candidateOf w sampleRate)))

end Verif.Consensus
