import Verif.Util.FourDOut
import Verif.Flow.SortTool

/-!
# The coordinates of 4D binning (`util/4dio.cc` 33-173) and the whole program (`util/fourdbin.cc` 121-157)

Coordinates are read as doubles, taken as rationals, and kept as `fourd_t`; `toK` is the conversion. The messages to the
terminal and the times are left out. All collective reads of a process are done when the processes make the same number of
them; otherwise some wait for ever, here `abort`.
-/

namespace Verif.FourDOut
open Verif.Rules Verif.Params Verif.Files Verif.Util Verif.Flow Verif.Decomp Verif.Sort Verif.Scalar

variable {K : Type}

/-- What `Coords` has for one trace, `util/4dio.hh` 22-47; the lines are only set with `ixline`. -/
structure Crd (K : Type) where
  xs : K
  ys : K
  xr : K
  yr : K
  il : ℤ
  xl : ℤ
  tn : Nat

/-- The rule of the first phase, `util/4dio.cc` 48-49. -/
def xRule : Res Rule := ctor [gtn, 20] true false false

/-- The rule of the second phase, `util/4dio.cc` 108-117. -/
def crdRule (ixline : Bool) : Res Rule :=
  ctor (if ixline then [20, 21, 22, 23, 26, 27] else [20, 21, 22, 23]) true false false

/-- The numbers of the traces of a block, `util/4dio.cc` 75-77, from row `j` of the block for `n` rows. -/
def setGtn (offset i : Nat) (p : Param ℚ) (j : Nat) : Nat → Res (Param ℚ)
  | 0 => .ok p
  | n + 1 => do
    let p ← setPrm asInt (i + j) gtn (BitVec.ofNat 64 (add64 (add64 offset i) j)) p
    setGtn offset i p (j + 1) n

/-- The first phase on one process, `util/4dio.cc` 68-78: blocks as pairs of first row and number of rows. -/
def xBlocks (ns nt offset : Nat) (d : Disk) : List (Nat × Nat) → Param ℚ → Res (Param ℚ)
  | [], p => .ok p
  | (i, n) :: l, p => do
    let q ← readTrace dbl asInt false ns nt (add64 offset i) n none (some p) i d
    match q.2 with
    | none => .ub
    | some p => do
      let p ← setGtn offset i p 0 n
      xBlocks ns nt offset d l p

/-- What the sort looks at: the x coordinate of the source and the number of the trace. `util/4dio.cc` 86-102. -/
structure XRec where
  x : ℚ
  gtn : Nat
deriving DecidableEq

/-- The comparison, `util/4dio.cc` 88-101. -/
def xLess (a b : XRec) : Bool := if a.x < b.x then true else decide (a.x = b.x) && decide (a.gtn < b.gtn)

/-- The record of row `i`, `util/4dio.cc` 90-100. -/
def xAt (p : Param ℚ) (i : Nat) : Res XRec := do
  let x ← getPrm asDouble i 20 p
  let g ← getPrm asInt i gtn p
  .ok ⟨x, g.toNat⟩

/-- What one process gives to the sort, `util/4dio.cc` 67-78. -/
def xPart (rule : Rule) (ns nt max : Nat) (d : Disk) (dec : Dec) : Res (List XRec) := do
  let p ← xBlocks ns nt dec.globalOffset d (pieces dec.localSize max dec.localSize 0) (Params.mk 0 rule dec.localSize)
  collect (xAt p) (List.range dec.localSize)

/-- The coordinates in row `j`, `util/4dio.cc` 136-157, for trace `t`; `old` is what was there. -/
def crdAt (toK : ℚ → K) (ixline : Bool) (p : Param ℚ) (j t : Nat) (old : Crd K) : Res (Crd K) := do
  let sx ← getPrm asDouble j 20 p
  let sy ← getPrm asDouble j 21 p
  let rx ← getPrm asDouble j 22 p
  let ry ← getPrm asDouble j 23 p
  if ixline then do
    let il ← getPrm asInt j 26 p
    let xl ← getPrm asInt j 27 p
    .ok ⟨toK sx, toK sy, toK rx, toK ry, il.toInt, xl.toInt, t⟩
  else .ok ⟨toK sx, toK sy, toK rx, toK ry, old.il, old.xl, t⟩

/-- The loop over the rows of a block, `util/4dio.cc` 135-157, from row `j` on: `orig` has the places in the block, `i` is
the first trace of the block. (The lines are set in a loop of their own, which makes no difference.) -/
def spreadCrd (toK : ℚ → K) (ixline : Bool) (trlist : List Nat) (i : Nat) (p : Param ℚ) :
    Nat → List Nat → List (Crd K) → Res (List (Crd K))
  | _, [], cs => .ok cs
  | j, o :: orig, cs =>
    match trlist[i + o]?, cs[i + o]? with
    | some t, some old => do
      let c ← crdAt toK ixline p j t old
      spreadCrd toK ixline trlist i p (j + 1) orig (cs.set (i + o) c)
    | _, _ => .ub

/-- The second phase on one process, `util/4dio.cc` 122-159; `idx` is `getSortIndex`, `src/sort.cc` 29-37. -/
def crdBlocks (toK : ℚ → K) (idx : List Nat → List Nat) (ixline : Bool) (ns : Nat) (d : Disk) (trlist : List Nat) :
    List (Nat × Nat) → Param ℚ → List (Crd K) → Res (List (Crd K))
  | [], _, cs => .ok cs
  | (i, n) :: l, p, cs => do
    let block := (trlist.drop i).take n
    let orig := idx block
    let q ← readList dbl asInt false ns (sortedOffs block orig) none (some p) 0 d
    match q.2 with
    | none => .ub
    | some p => do
      let cs ← spreadCrd toK ixline trlist i p 0 orig cs
      crdBlocks toK idx ixline ns d trlist l p cs

/-- The coordinates of one process after the sort, `util/4dio.cc` 46 and 119-159; `dflt` is what the constructor of `Coords`
leaves in the entries, `util/4dio.hh` 53-87. -/
def crdPart (toK : ℚ → K) (idx : List Nat → List Nat) (dflt : Crd K) (ixline : Bool) (rule : Rule) (ns max : Nat) (d : Disk)
    (trlist : List Nat) : Res (List (Crd K)) :=
  crdBlocks toK idx ixline ns d trlist (pieces trlist.length max trlist.length 0)
    (Params.mk 0 rule (min trlist.length max)) (List.replicate trlist.length dflt)

/-- `getCoords` on all `P` processes, `util/4dio.cc` 33-173: the coordinates of each of them. `srt` is `std::sort`; `fuel`
bounds the rounds of the parallel sort, `.abort` stands for not being done after as many. -/
def getCoords (toK : ℚ → K) (srt : List XRec → List XRec) (fuel : Nat) (idx : List Nat → List Nat) (dflt : Crd K)
    (ixline : Bool) (P : Nat) (d : Disk) : Res (List (List (Crd K))) := do
  let info ← openRead d
  let decs ← collect (fun r => blockDecomposition info.nt P r) (List.range P)
  let biggest := (decs.map fun dec => dec.localSize).foldl max 0
  let calls ← collect (fun dec : Dec => coordCalls ixline dec.localSize biggest) decs
  if calls.all fun c => decide (some c = calls.head?) then do
    let rule ← xRule
    let parts ← collect (xPart rule info.ns info.nt (firstMax biggest) d) decs
    match sortTraces { srt := srt, msg := id, key := XRec.gtn, dflt := ⟨0, 0⟩ } id XRec.gtn false fuel parts with
    | none => .abort
    | some (_, lists) => do
      let rule ← crdRule ixline
      collect (crdPart toK idx dflt ixline rule info.ns (secondMax ixline biggest) d) lists
  else .abort

/-- `main` of 4D binning, `util/fourdbin.cc` 121-157, on `P` processes from the two input files `d1` and `d2` to the outputs,
which are other files; `fuel` is for the sorts. -/
def binning (g : Geo K (Crd K)) [LinearOrder K] (toK : ℚ → K) (cvd : Conv ℚ K) (srt : List XRec → List XRec) (fuel : Nat)
    (idx : List Nat → List Nat) (sched : List (Put ℚ) → List (Put ℚ)) (dflt : Crd K) (ixline printDsr : Bool) (P : Nat)
    (d1 d2 out1 out2 : Disk) : Res (Disk × Disk) := do
  let c1s ← getCoords toK srt fuel idx dflt ixline P d1
  let c2s ← getCoords toK srt fuel idx dflt ixline P d2
  fourdbin g dbl asInt cvd 0 idx sched printDsr d1 d2 c1s c2s out1 out2

end Verif.FourDOut
