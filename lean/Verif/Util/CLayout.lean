import Verif.File.Model

/-!
# Header layouts made through the C interface

`src/PIOL_C_bindings.cc`, the calls about rules and parameters, and what they lead to in files. Handles are the objects they point to;
null handles fail assertions and are left out. The calls take effect on the bytes of the traces; what closing a file writes to its
header is `File/Writer.lean`.
-/
namespace Verif.CLayout
open Verif.Rules Verif.Params Verif.Files

/-- How a layout begins. -/
inductive Start where
  /-- `PIOL_File_Rule_new`, `PIOL_C_bindings.cc` 30-33. -/
  | plain (defaults : Bool)
  /-- `PIOL_File_Rule_new_from_list`, `PIOL_C_bindings.cc` 35-40. -/
  | list (ms : List Nat)

/-- The rule made, `PIOL_C_bindings.cc` 32 and 39: of full extent, without the extra items. -/
def Start.rule : Start → Res Rule
  | .plain defaults => ctor [] true defaults false
  | .list ms => ctor ms true false false

/-- A call that changes a layout, `PIOL_C_bindings.cc` 47-88, 136-141. -/
inductive Call where
  | addLong (m loc : Nat)
  | addShort (m loc : Nat)
  | addFloat (m loc scal : Nat)
  | addIndex (m : Nat)
  | addCopy
  | rmRule (m : Nat)
  | addMeta (m : Nat)

/-- The method called, `PIOL_C_bindings.cc` 51, 58, 66, 73, 80, 87, 140. -/
def Call.op : Call → Op
  | .addLong m loc => .addLong m loc
  | .addShort m loc => .addShort m loc
  | .addFloat m loc scal => .addFloat m loc scal
  | .addIndex m => .addIndex m
  | .addCopy => .addCopy
  | .rmRule m => .rmRule m
  | .addMeta m => .addRule m

/-- A layout, `PIOL_C_bindings.cc` 30-88, 136-141. -/
def layout (s : Start) (cs : List Call) : Res Rule := do
  let r ← s.rule
  let (r, _) ← run r (cs.map Call.op)
  .ok r

/-- `PIOL_File_setPrm_Integer(row, item, value, param)`, `PIOL_C_bindings.cc` 188-194. -/
structure Assign where
  row : Nat
  item : Nat
  value : Int

/-- The calls one after the other. `PIOL_C_bindings.cc` 188-194. -/
def setAll {F : Type} (cv : Conv F Int) : List Assign → Param F → Res (Param F)
  | [], p => .ok p
  | a :: l, p => do
    let p ← setPrm cv a.row a.item a.value p
    setAll cv l p

/-- A layout is made, `PIOL_File_Param_new` (`PIOL_C_bindings.cc` 111-119), values are set, and `PIOL_File_WriteDirect_writeParam`
(393-403, `WriteDirect.cc` 35-39, `WriteInterface.cc` 11-17) writes them to `sz` traces. -/
def writeValues {F : Type} (ops : FloatOps F) (cv : Conv F Int) (zero : F) (ns : Nat) (s : Start) (cs : List Call) (l : List Assign)
    (offset sz : Nat) (d : Disk) : Res Disk := do
  let r ← layout s cs
  let p ← setAll cv l (mk zero r sz)
  let (d, _) ← writeTraceT ops ns (.start offset) sz none (some p) 0 d
  .ok d

/-- A layout is made, `PIOL_File_Param_new` (`PIOL_C_bindings.cc` 111-119), and `PIOL_File_ReadDirect_readParam` (405-415,
`ReadDirect.cc` 51-55, `ReadInterface.cc` 18-24) reads the parameters of `sz` traces from a file of `nt`. -/
def readValues {F : Type} (ops : FloatOps F) (cvt : Conv F (BitVec 64)) (zero : F) (ns nt : Nat) (s : Start) (cs : List Call)
    (offset sz : Nat) (d : Disk) : Res (Option (Param F)) := do
  let r ← layout s cs
  let (_, q) ← readTrace ops cvt false ns nt offset sz none (some (mk zero r sz)) 0 d
  .ok q

end Verif.CLayout
