import Verif.Basic
/-!
# SEG-Y file layout

`include/ExSeisDat/PIOL/segy_utils.hh:154-258`, with `size_t` arithmetic modulo
`2^64` and the default element type `float` (4 bytes).
-/
namespace Verif.Layout

/-- `getHOSz`, `segy_utils.hh:176` (`Size::HO`, line 158). -/
def getHOSz : Nat := 3600
/-- `getMDSz`, `segy_utils.hh:184` (`Size::DOMd`, line 161). -/
def getMDSz : Nat := 240
/-- `getDFSz`, `segy_utils.hh:195`. -/
def getDFSz (ns : Nat) : Nat := mul64 ns 4
/-- `getDOSz`, `segy_utils.hh:206`. -/
def getDOSz (ns : Nat) : Nat := add64 getMDSz (getDFSz ns)
/-- `getFileSz`, `segy_utils.hh:219`. -/
def getFileSz (nt ns : Nat) : Nat := add64 getHOSz (mul64 nt (getDOSz ns))
/-- `getDOLoc`, `segy_utils.hh:231`. -/
def getDOLoc (i ns : Nat) : Nat := getFileSz i ns
/-- `getDODFLoc`, `segy_utils.hh:243`. -/
def getDODFLoc (i ns : Nat) : Nat := add64 (getFileSz i ns) getMDSz
/-- `getNt`, `segy_utils.hh:255`; division by zero is undefined. -/
def getNt (fsz ns : Nat) : Res Nat :=
  if getDOSz ns = 0 then .ub else .ok (sub64 fsz getHOSz / getDOSz ns)

end Verif.Layout
