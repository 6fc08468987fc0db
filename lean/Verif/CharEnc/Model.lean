import Verif.Basic
/-!
# ASCII / EBCDIC conversion and the textual file header

`src/utils/encoding/character_encoding.cc`, the text part of the `ReadSEGY`
constructor and of `WriteSEGY`.  An `unsigned char` is a natural number below
256.
-/
namespace Verif.CharEnc

/-- `character_encoding_array`, `character_encoding.cc:63-126`: pairs
(ASCII, EBCDIC), copied entry by entry. -/
def table : List (Nat × Nat) :=
  [
   (0x00, 0x00), (0x01, 0x01), (0x02, 0x02), (0x03, 0x03), (0x04, 0x37), (0x05, 0x2D),
   (0x06, 0x2E), (0x07, 0x2F), (0x08, 0x16), (0x09, 0x05), (0x0A, 0x25), (0x0B, 0x0B),
   (0x0C, 0x0C), (0x0D, 0x0D), (0x0E, 0x0E), (0x0F, 0x0F), (0x10, 0x10), (0x11, 0x11),
   (0x12, 0x12), (0x13, 0x13), (0x14, 0x3C), (0x15, 0x3D), (0x16, 0x32), (0x17, 0x26),
   (0x18, 0x18), (0x19, 0x19), (0x1A, 0x3F), (0x1B, 0x27), (0x1C, 0x1C), (0x1D, 0x1D),
   (0x1E, 0x1E), (0x1F, 0x1F), (0x20, 0x40), (0x21, 0x5A), (0x22, 0x7F), (0x23, 0x7B),
   (0x24, 0x5B), (0x25, 0x6C), (0x26, 0x50), (0x27, 0x7D), (0x28, 0x4D), (0x29, 0x5D),
   (0x2A, 0x5C), (0x2B, 0x4E), (0x2C, 0x6B), (0x2D, 0x60), (0x2E, 0x4B), (0x2F, 0x61),
   (0x30, 0xF0), (0x31, 0xF1), (0x32, 0xF2), (0x33, 0xF3), (0x34, 0xF4), (0x35, 0xF5),
   (0x36, 0xF6), (0x37, 0xF7), (0x38, 0xF8), (0x39, 0xF9), (0x3A, 0x7A), (0x3B, 0x5E),
   (0x3C, 0x4C), (0x3D, 0x7E), (0x3E, 0x6E), (0x3F, 0x6F), (0x40, 0x7C), (0x41, 0xC1),
   (0x42, 0xC2), (0x43, 0xC3), (0x44, 0xC4), (0x45, 0xC5), (0x46, 0xC6), (0x47, 0xC7),
   (0x48, 0xC8), (0x49, 0xC9), (0x4A, 0xD1), (0x4B, 0xD2), (0x4C, 0xD3), (0x4D, 0xD4),
   (0x4E, 0xD5), (0x4F, 0xD6), (0x50, 0xD7), (0x51, 0xD8), (0x52, 0xD9), (0x53, 0xE2),
   (0x54, 0xE3), (0x55, 0xE4), (0x56, 0xE5), (0x57, 0xE6), (0x58, 0xE7), (0x59, 0xE8),
   (0x5A, 0xE9), (0x5C, 0xE0), (0x5F, 0x6D), (0x60, 0x79), (0x61, 0x81), (0x62, 0x82),
   (0x63, 0x83), (0x64, 0x84), (0x65, 0x85), (0x66, 0x86), (0x67, 0x87), (0x68, 0x88),
   (0x69, 0x89), (0x6A, 0x91), (0x6B, 0x92), (0x6C, 0x93), (0x6D, 0x94), (0x6E, 0x95),
   (0x6F, 0x96), (0x70, 0x97), (0x71, 0x98), (0x72, 0x99), (0x73, 0xA2), (0x74, 0xA3),
   (0x75, 0xA4), (0x76, 0xA5), (0x77, 0xA6), (0x78, 0xA7), (0x79, 0xA8), (0x7A, 0xA9),
   (0x7B, 0xC0), (0x7C, 0x4F), (0x7D, 0xD0), (0x7E, 0xA1), (0x7F, 0x07), (0xFF, 0xFF)]

/-- Insertion into a list sorted by `key`.
Not code of /repo: used for `std::sort` in `character_encoding.cc` 141 and 158. -/
def insertBy (key : Nat × Nat → Nat) (p : Nat × Nat) : List (Nat × Nat) → List (Nat × Nat)
  | [] => [p]
  | q :: qs => if key p ≤ key q then p :: q :: qs else q :: insertBy key p qs

/-- `std::sort` by a key.  The keys of the table are distinct (proved), so any
correct sort gives this result (`Lemmas.sort_unique`). Used in `character_encoding.cc` 141 and 158. -/
def sortBy (key : Nat × Nat → Nat) : List (Nat × Nat) → List (Nat × Nat)
  | [] => []
  | p :: ps => insertBy key p (sortBy key ps)

/-- `ebcdic_sorted_array`, `character_encoding.cc` 134-144 and 167. -/
def ebcdicSorted : List (Nat × Nat) := sortBy Prod.snd table
/-- `ascii_sorted_array`, `character_encoding.cc` 151-161 and 170. -/
def asciiSorted : List (Nat × Nat) := sortBy Prod.fst table

/-- `std::lower_bound` on a sorted range: the first element whose key is not
below `b`; `none` is the end iterator. Used in `character_encoding.cc` 184 and 202. -/
def lowerBound (key : Nat × Nat → Nat) (l : List (Nat × Nat)) (b : Nat) : Option (Nat × Nat) :=
  l.find? fun p => !(decide (key p < b))

/-- `to_ASCII_from_EBCDIC`, `character_encoding.cc` 176-192. -/
def toASCII (e : Nat) : Nat :=
  match lowerBound Prod.snd ebcdicSorted e with
  | none => 0x1A
  | some p => p.1

/-- `to_EBCDIC_from_ASCII`, `character_encoding.cc` 194-210. -/
def toEBCDIC (a : Nat) : Nat :=
  match lowerBound Prod.fst asciiSorted a with
  | none => 0x3F
  | some p => p.2

/-- `is_printable_ASCII`, `character_encoding.cc` 212-216. -/
def printableASCII (a : Nat) : Bool := a ≥ 0x20 && a ≤ 0x7E

/-- `is_printable_EBCDIC`, `character_encoding.cc` 218-221. -/
def printableEBCDIC (e : Nat) : Bool := printableASCII (toASCII e)

/-- `getTextSz`, `segy_utils.hh:156`. -/
def textSz : Nat := 3200

/-- `std::string::resize` with the default fill, NUL. Used in `ReadSEGY.cc` 91 and `WriteSEGY.cc` 142. -/
def resize (n : Nat) (t : List Nat) : List Nat := t.take n ++ List.replicate (n - t.length) 0

/-- `WriteSEGY::writeText`, `src/WriteSEGY.cc:138-145`: new value of the stored
text.  The stored text is initially empty (`WriteInterface.hh`). -/
def writeText (stored : List Nat) (t : List Nat) : List Nat :=
  if stored ≠ t then resize textSz t else stored

/-- The first 3200 bytes of the header written by the destructor,
`src/WriteSEGY.cc:66-71`: a zero-initialised buffer with the text copied to its
start (the stored text is empty or exactly 3200 characters). -/
def headerText (stored : List Nat) : List Nat :=
  stored ++ List.replicate (textSz - stored.length) 0

/-- Text part of the `ReadSEGY` constructor, `src/ReadSEGY.cc:68-96`, applied to
the first 3200 bytes of the file. -/
def readText (h : List Nat) : List Nat :=
  if h.countP printableASCII > h.countP printableEBCDIC then h else h.map toASCII

end Verif.CharEnc
