import Verif.Flow.Angle
import Verif.Flow.Gather
import Verif.Flow.Output
import Verif.Util.Model3D

/-!
# Angle gathers of a whole file (`util/radon.cc`, `src/Flow/Set.cc` 606-662 and 270-397, `src/Flow/RadonGatherState.cc`)

The program makes a set of one file and hands it to `Set::toAngle`; `Set::startGather` then finds the gathers, lets every
process read the velocities of its gathers from the model, and treats the gathers one after the other. Of a trace only the
inline and crossline number and the samples are modelled (the rule of `Set.cc` 315-316 has nothing else). How the file is
made into traces and traces into the file is the matter of `Flow/Output.lean`, which process calls when of `Flow/Gather.lean`.
-/

namespace Verif.Flow

open Verif.Signal Verif.Util

/-- A trace: its inline and crossline number, and its samples (`TraceBlock`, used in `Set.cc` 336-349). -/
abbrev Rec (T : Type) := (Int × Int) × List T

variable {V S : Type}

/-- The header of a trace of the velocity model (`src/ReadSEGYModel.cc` 28-35). -/
def modelHdr (vm : List (Rec V)) (n : Nat) : Int × Int := (vm[n]?.map Prod.fst).getD (0, 0)

/-- The velocities of one trace of the model, read by `readTraceNonContiguous` (`src/ReadSEGYModel.cc` 96-97) into a
vector of zeros (88). A read beyond the end of the file is short and leaves the zeros (`fetch` of `File/Model.lean`); of a
trace number so large that the address is no longer a file offset nothing is said (`abort`). -/
def modelTrace (zeroV : V) (vNs : Nat) (vm : List (Rec V)) (o : Nat) : Res (List V) :=
  match vm[o]? with
  | some t => .ok t.2
  | none => if 3600 + (o + 1) * (240 + 4 * vNs) < 2 ^ 63 then .ok (List.replicate vNs zeroV) else .abort

/-- `ReadSEGYModel::readModel` for a list of gathers, `src/ReadSEGYModel.cc` 83-100: the trace numbers go into the view of
one collective read, which asks that they do not decrease (`legal` of `File/Model.lean`). `keys` are the inline and crossline
numbers of the gathers (91). -/
def readModel (zeroV : V) (vNs : Nat) (vm : List (Rec V)) (c : Coord × Coord) (keys : List (Int × Int)) : Res (List V) :=
  let offs := keys.map (modelOffset c)
  if DataIO.nondec offs then do
    let ts ← collect (modelTrace zeroV vNs vm) offs
    .ok ts.flatten
  else .ub

/-- `RadonGatherState::makeState`, `src/Flow/RadonGatherState.cc` 15-34: `cfg` has the arguments of `toAngle` and the length
of a model trace (21-22), `nums` are the gathers of this process, `gs` all gathers of the file. -/
def makeState (cfg : Radon V) (zeroV : V) (vm : List (Rec V)) (gs : List (GInfo (Int × Int))) (nums : List Nat) :
    Res (Radon V) := do
  let c ← modelCoords vm.length (modelHdr vm)
  let infos ← collect (readAt gs) nums
  let vtrc ← readModel zeroV cfg.vNs vm c (infos.map GInfo.key)
  .ok { cfg with vtrc := vtrc, il := infos.map fun g => g.key.1, xl := infos.map fun g => g.key.2 }

/-- One gather of a process, `Set.cc` 331-363: `ig` is its number on this process (343), `rd` where it is in the input
(345-349), `wr` where its result goes (353-361). The result is a list of traces with their numbers in the output. -/
def treat (zero : S) (st : Radon V) (ns : Nat) (inp : List (Rec S)) (ig : Nat) (rd wr : Piece) :
    Res (List (Nat × Rec S)) := do
  let block := (inp.drop rd.start).take rd.count
  let (out, keys) ← toAngle zero st ig rd.count ns (block.flatMap Prod.snd)
  .ok ((List.range st.oGSz).map fun j => (wr.start + j, (keys.getD j (0, 0), (out.drop (j * ns)).take ns)))

/-- What process `r` writes, `Set.cc` 295-363; `nums` are the gathers of every process. Every gather gives `oGSz` traces
(622-623). -/
def radonRank (zero : S) (cfg : Radon V) (zeroV : V) (vm : List (Rec V)) (ns : Nat) (inp : List (Rec S)) (P : Nat)
    (gs : List (GInfo (Int × Int))) (nums : Nat → List Nat) (r : Nat) : Res (List (Nat × Rec S)) := do
  let st ← makeState cfg zeroV vm gs (nums r)
  let rd := pieces P (gs.map GInfo.count) nums r
  let wr := pieces P (gs.map fun _ => cfg.oGSz) nums r
  let out ← collect (fun q : (Piece × Piece) × Nat => treat zero st ns inp q.2 q.1.1 q.1.2) (rd.zip wr).zipIdx
  .ok out.flatten

/-- What all processes write, `Set.cc` 293-363, on the only file of the set (`util/radon.cc` 64-66). `past` is as in `getGathers`. -/
def radon (past : Option (Int × Int)) (zero : S) (cfg : Radon V) (zeroV : V) (vm : List (Rec V)) (ns : Nat)
    (inp : List (Rec S)) (P : Nat) : Res (List (Nat × Rec S)) := do
  let gs ← getIlXlGathers past P (inp.map Prod.fst)
  let all ← collect (gNums P gs.length 1) (List.range P)
  let out ← collect (radonRank zero cfg zeroV vm ns inp P gs fun r => all.getD r []) (List.range P)
  .ok out.flatten

end Verif.Flow
