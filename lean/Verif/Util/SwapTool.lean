import Verif.Util.CreateTool
/-!
# Exchanging the source coordinates

`examples/modprm.c`.  `malloc` is taken to succeed; the input and the output are
different files.
-/
namespace Verif.CSwap
open Verif.Rules Verif.Params Verif.Files Verif.Layout Verif.CCreate Verif.Scalar

/-- The body of the loop, `modprm.c:45-52`, through `PIOL_C_bindings.cc:172-178`, `:196-202`. 20 and 21 are the source coordinates,
`Meta.h:86-101`. -/
def swapRow (i : Nat) (p : Param ℚ) : Res (Param ℚ) := do
  let x ← getPrm dconv i 20 p
  let y ← getPrm dconv i 21 p
  let p ← setPrm dconv i 20 y p
  setPrm dconv i 21 x p

/-- The loop, `modprm.c:45-52`. -/
def swapRows (p : Param ℚ) (i : Nat) : Nat → Res (Param ℚ)
  | 0 => .ok p
  | n + 1 => do
    let p ← swapRow i p
    swapRows p (i + 1) n

/-- `readwriteParam`, `modprm.c:36-57`, through `PIOL_C_bindings.cc:393-415` and `ReadInterface.cc:18-24`,
`WriteInterface.cc:11-17`: parameters only.  The call of `isErr` is made in a state without errors. -/
def swapBlock (i : Info) (d : Disk) (c : Nat × Nat) (out : Disk) : Res Disk := do
  let rule ← ctor [] true true false
  let q ← readTrace dbl iconv (decide (i.format = 1#16)) i.ns i.nt c.1 c.2 none (some (mk 0 rule c.2)) 0 d
  match q.2 with
  | none => .ub
  | some p => do
    let p ← swapRows p 0 c.2
    let (out, _) ← writeTraceT dbl i.ns (.start c.1) c.2 none (some p) 0 out
    .ok out

/-- `main` with both names given, on `P` processes: `modprm.c:106-179`, `writeHeader` (`:64-72`, the calls of
`CCopy.headerCalls`) and `writePayload` (`:82-104`, the calls of `CCopy.callsOf`).  `sched` is the order in which the calls of
the processes take place. -/
def modprm (sched : List (Nat × Nat) → List (Nat × Nat)) (P : Nat) (d out : Disk) : Res Disk := do
  let i ← openRead d
  let w := CCopy.headerCalls i
  if w.err then .abort
  else do
    let decs ← Flow.collect (Decomp.blockDecomposition i.nt P) (List.range P)
    let tcnt := CCopy.perCall (2 * 1024 * 1024 * 1024) i.ns
    if tcnt = 0 then .ub
    else do
      let biggest := (decs.map (·.localSize)).foldl max 0
      let calls := decs.map fun c => CCopy.callsOf tcnt c.globalOffset c.localSize biggest
      let out ← runBlocks (swapBlock i d) (sched calls.flatten) out
      close (calls.map fun l => l.foldl (fun w c => w.writeTrace c.1 c.2) w) out

end Verif.CSwap
