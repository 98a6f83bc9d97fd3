import Verif.Bits.UIntTypes
import Verif.Containers.Lists

/-
Which of the overloaded operators of `UInt8`, `UInt16`, `UInt32` and `UInt64` a call means, and what it computes: include/daw/daw_uint_types.h.
-/

namespace Verif.Bits.UOps
open Verif Verif.Cxx Verif.Bits

/-- The widths of the types. (Specification, no line of the source.) -/
inductive W
  | b8
  | b16
  | b32
  | b64
  deriving DecidableEq

/-- The number of bits. (Specification, no line of the source.) -/
def W.bits : W → Nat
  | .b8 => 8
  | .b16 => 16
  | .b32 => 32
  | .b64 => 64

/-- The type of a parameter: one of the enumerations, daw_uint_types.h 25-28, or a `std::uintN_t`. -/
inductive Param
  | e (w : W)
  | n (w : W)
  deriving DecidableEq

/-- The number of bits of a parameter. (Specification, no line of the source.) -/
def Param.bits : Param → Nat
  | .e w => w.bits
  | .n w => w.bits

/-- The type of an argument: an enumeration, a `std::uintN_t`, or another integer type such as `int`. (Specification, no line of the source.) -/
inductive Arg
  | e (w : W)
  | n (w : W)
  | other
  deriving DecidableEq

/-- An overload of an operator: its parameters, the width of the unsigned type it computes in (used here for shifts and comparisons only; that `+`, `-` and `*` are computed modulo two to the width of
their result is C173) and the width of the result; for comparisons, which return `bool`, the latter is not
used. (Specification, no line of the source.) -/
structure Overload where
  l : Param
  r : Param
  width : W
  res : W
  deriving DecidableEq

/-- The overloads of `operator<<` with two operands, daw_uint_types.h 132-180, 745-774, 1139-1163, 2671-2689. -/
def shlTable : List Overload :=
  [⟨.e .b64, .n .b64, .b64, .b64⟩, ⟨.e .b64, .e .b64, .b64, .b64⟩, ⟨.e .b64, .e .b32, .b64, .b64⟩, ⟨.e .b64, .e .b16, .b64, .b64⟩, ⟨.e .b64, .e .b8, .b64, .b64⟩,
   ⟨.n .b64, .e .b64, .b64, .b64⟩, ⟨.n .b64, .e .b32, .b64, .b64⟩, ⟨.n .b64, .e .b16, .b64, .b64⟩, ⟨.n .b64, .e .b8, .b64, .b64⟩, ⟨.e .b32, .n .b32, .b32, .b32⟩,
   ⟨.e .b32, .e .b32, .b32, .b32⟩, ⟨.e .b32, .e .b16, .b32, .b32⟩, ⟨.e .b32, .e .b8, .b32, .b32⟩, ⟨.n .b32, .e .b32, .b32, .b32⟩, ⟨.e .b16, .n .b16, .b32, .b16⟩,
   ⟨.e .b16, .e .b16, .b32, .b16⟩, ⟨.e .b16, .e .b8, .b32, .b16⟩, ⟨.n .b16, .e .b16, .b32, .b16⟩, ⟨.e .b8, .n .b8, .b32, .b8⟩, ⟨.e .b8, .e .b8, .b32, .b8⟩,
   ⟨.n .b8, .e .b8, .b32, .b8⟩]

/-- The overloads of `operator>>` with two operands, daw_uint_types.h 182-230, 776-815, 1165-1183, 2691-2709. -/
def shrTable : List Overload :=
  [⟨.e .b64, .n .b64, .b64, .b64⟩, ⟨.e .b64, .e .b64, .b64, .b64⟩, ⟨.e .b64, .e .b32, .b64, .b64⟩, ⟨.e .b64, .e .b16, .b64, .b64⟩, ⟨.e .b64, .e .b8, .b64, .b64⟩,
   ⟨.n .b64, .e .b64, .b64, .b64⟩, ⟨.n .b64, .e .b32, .b64, .b64⟩, ⟨.n .b64, .e .b16, .b64, .b64⟩, ⟨.n .b64, .e .b8, .b64, .b64⟩, ⟨.e .b32, .n .b32, .b32, .b32⟩,
   ⟨.e .b32, .e .b32, .b32, .b32⟩, ⟨.e .b32, .e .b16, .b32, .b32⟩, ⟨.e .b32, .e .b8, .b32, .b32⟩, ⟨.n .b32, .e .b32, .b32, .b32⟩, ⟨.n .b32, .e .b16, .b32, .b32⟩,
   ⟨.n .b32, .e .b8, .b32, .b32⟩, ⟨.e .b16, .n .b16, .b32, .b16⟩, ⟨.e .b16, .e .b16, .b32, .b16⟩, ⟨.n .b16, .e .b16, .b32, .b16⟩, ⟨.e .b8, .n .b8, .b32, .b8⟩,
   ⟨.e .b8, .e .b8, .b32, .b8⟩, ⟨.n .b8, .e .b8, .b32, .b8⟩]

/-- The overloads of `operator|` with two operands, daw_uint_types.h 337-345, 562-595, 940-950, 1000-1023, 1251-1261, 1359-1367, 2804-2814, 2864-2867. -/
def orTable : List Overload :=
  [⟨.e .b64, .n .b64, .b64, .b64⟩, ⟨.n .b64, .e .b64, .b64, .b64⟩, ⟨.e .b64, .e .b64, .b64, .b64⟩, ⟨.e .b64, .e .b32, .b64, .b64⟩, ⟨.e .b64, .e .b16, .b64, .b64⟩,
   ⟨.e .b64, .e .b8, .b64, .b64⟩, ⟨.e .b32, .e .b64, .b64, .b64⟩, ⟨.e .b16, .e .b64, .b64, .b64⟩, ⟨.e .b8, .e .b64, .b64, .b64⟩, ⟨.e .b32, .n .b32, .b32, .b32⟩,
   ⟨.n .b32, .e .b32, .b32, .b32⟩, ⟨.e .b32, .e .b32, .b32, .b32⟩, ⟨.e .b32, .e .b16, .b32, .b32⟩, ⟨.e .b32, .e .b8, .b32, .b32⟩, ⟨.e .b16, .e .b32, .b32, .b32⟩,
   ⟨.e .b8, .e .b32, .b32, .b32⟩, ⟨.e .b16, .n .b16, .b16, .b16⟩, ⟨.n .b16, .e .b16, .b16, .b16⟩, ⟨.e .b16, .e .b16, .b16, .b16⟩, ⟨.e .b16, .e .b8, .b16, .b16⟩,
   ⟨.e .b8, .n .b8, .b8, .b8⟩, ⟨.n .b8, .e .b8, .b8, .b8⟩, ⟨.e .b8, .e .b8, .b8, .b8⟩]

/-- The overloads of `operator&` with two operands, daw_uint_types.h 347-355, 597-630, 952-962, 1025-1048, 1263-1273, 1369-1377, 2816-2826, 2869-2872. -/
def andTable : List Overload :=
  [⟨.e .b64, .n .b64, .b64, .b64⟩, ⟨.n .b64, .e .b64, .b64, .b64⟩, ⟨.e .b64, .e .b64, .b64, .b64⟩, ⟨.e .b64, .e .b32, .b64, .b64⟩, ⟨.e .b64, .e .b16, .b64, .b64⟩,
   ⟨.e .b64, .e .b8, .b64, .b64⟩, ⟨.e .b32, .e .b64, .b64, .b64⟩, ⟨.e .b16, .e .b64, .b64, .b64⟩, ⟨.e .b8, .e .b64, .b64, .b64⟩, ⟨.e .b32, .n .b32, .b32, .b32⟩,
   ⟨.n .b32, .e .b32, .b32, .b32⟩, ⟨.e .b32, .e .b32, .b32, .b32⟩, ⟨.e .b32, .e .b16, .b32, .b32⟩, ⟨.e .b32, .e .b8, .b32, .b32⟩, ⟨.e .b16, .e .b32, .b32, .b32⟩,
   ⟨.e .b8, .e .b32, .b32, .b32⟩, ⟨.e .b16, .n .b16, .b16, .b16⟩, ⟨.n .b16, .e .b16, .b16, .b16⟩, ⟨.e .b16, .e .b16, .b16, .b16⟩, ⟨.e .b16, .e .b8, .b16, .b16⟩,
   ⟨.e .b8, .n .b8, .b8, .b8⟩, ⟨.n .b8, .e .b8, .b8, .b8⟩, ⟨.e .b8, .e .b8, .b8, .b8⟩]

/-- The overloads of `operator^` with two operands, daw_uint_types.h 357-365, 632-665, 964-974, 1050-1073, 1275-1285, 1379-1387, 2828-2838, 2874-2877. -/
def xorTable : List Overload :=
  [⟨.e .b64, .n .b64, .b64, .b64⟩, ⟨.n .b64, .e .b64, .b64, .b64⟩, ⟨.e .b64, .e .b64, .b64, .b64⟩, ⟨.e .b64, .e .b32, .b64, .b64⟩, ⟨.e .b64, .e .b16, .b64, .b64⟩,
   ⟨.e .b64, .e .b8, .b64, .b64⟩, ⟨.e .b32, .e .b64, .b64, .b64⟩, ⟨.e .b16, .e .b64, .b64, .b64⟩, ⟨.e .b8, .e .b64, .b64, .b64⟩, ⟨.e .b32, .n .b32, .b32, .b32⟩,
   ⟨.n .b32, .e .b32, .b32, .b32⟩, ⟨.e .b32, .e .b32, .b32, .b32⟩, ⟨.e .b32, .e .b16, .b32, .b32⟩, ⟨.e .b32, .e .b8, .b32, .b32⟩, ⟨.e .b16, .e .b32, .b32, .b32⟩,
   ⟨.e .b8, .e .b32, .b32, .b32⟩, ⟨.e .b16, .n .b16, .b16, .b16⟩, ⟨.n .b16, .e .b16, .b16, .b16⟩, ⟨.e .b16, .e .b16, .b16, .b16⟩, ⟨.e .b16, .e .b8, .b16, .b16⟩,
   ⟨.e .b8, .n .b8, .b8, .b8⟩, ⟨.n .b8, .e .b8, .b8, .b8⟩, ⟨.e .b8, .e .b8, .b8, .b8⟩]

/-- The overloads of `operator+` with two operands, daw_uint_types.h 1424-1461, 1818-1872, 2192-2221, 2485-2500. -/
def addTable : List Overload :=
  [⟨.e .b64, .e .b64, .b64, .b64⟩, ⟨.e .b64, .e .b32, .b64, .b64⟩, ⟨.e .b64, .e .b16, .b64, .b64⟩, ⟨.e .b64, .e .b8, .b64, .b64⟩, ⟨.e .b32, .e .b64, .b64, .b64⟩,
   ⟨.e .b16, .e .b64, .b64, .b64⟩, ⟨.e .b8, .e .b64, .b64, .b64⟩, ⟨.e .b64, .n .b64, .b64, .b64⟩, ⟨.n .b64, .e .b64, .b64, .b64⟩, ⟨.e .b32, .e .b32, .b32, .b32⟩,
   ⟨.e .b32, .e .b16, .b32, .b32⟩, ⟨.e .b32, .e .b8, .b32, .b32⟩, ⟨.e .b16, .e .b32, .b32, .b32⟩, ⟨.e .b8, .e .b32, .b32, .b32⟩, ⟨.e .b32, .n .b32, .b32, .b32⟩,
   ⟨.e .b16, .n .b32, .b32, .b32⟩, ⟨.e .b8, .n .b32, .b32, .b32⟩, ⟨.n .b32, .e .b32, .b32, .b32⟩, ⟨.n .b32, .e .b16, .b32, .b32⟩, ⟨.n .b32, .e .b8, .b32, .b32⟩,
   ⟨.e .b16, .e .b16, .b16, .b16⟩, ⟨.e .b16, .e .b8, .b16, .b16⟩, ⟨.e .b8, .e .b16, .b16, .b16⟩, ⟨.e .b16, .n .b16, .b16, .b16⟩, ⟨.e .b8, .n .b16, .b16, .b16⟩,
   ⟨.n .b16, .e .b16, .b16, .b16⟩, ⟨.e .b8, .e .b8, .b8, .b8⟩, ⟨.e .b8, .n .b8, .b8, .b8⟩, ⟨.n .b8, .e .b8, .b8, .b8⟩]

/-- The overloads of `operator-` with two operands, daw_uint_types.h 1495-1536, 1915-1961, 2254-2281, 2519-2534. -/
def subTable : List Overload :=
  [⟨.e .b64, .e .b64, .b64, .b64⟩, ⟨.e .b64, .e .b32, .b64, .b64⟩, ⟨.e .b64, .e .b16, .b64, .b64⟩, ⟨.e .b64, .e .b8, .b64, .b64⟩, ⟨.e .b32, .e .b64, .b64, .b64⟩,
   ⟨.e .b16, .e .b64, .b64, .b64⟩, ⟨.e .b8, .e .b64, .b64, .b64⟩, ⟨.e .b64, .n .b64, .b64, .b64⟩, ⟨.n .b64, .e .b64, .b64, .b64⟩, ⟨.e .b32, .e .b32, .b32, .b32⟩,
   ⟨.e .b32, .e .b16, .b32, .b32⟩, ⟨.e .b32, .e .b8, .b32, .b32⟩, ⟨.e .b16, .e .b32, .b32, .b32⟩, ⟨.e .b8, .e .b32, .b32, .b32⟩, ⟨.e .b32, .n .b32, .b32, .b32⟩,
   ⟨.n .b32, .e .b32, .b32, .b32⟩, ⟨.n .b32, .e .b16, .b32, .b32⟩, ⟨.n .b32, .e .b8, .b32, .b32⟩, ⟨.e .b16, .e .b16, .b16, .b16⟩, ⟨.e .b16, .e .b8, .b16, .b16⟩,
   ⟨.e .b8, .e .b16, .b16, .b16⟩, ⟨.e .b16, .n .b16, .b16, .b16⟩, ⟨.n .b16, .e .b16, .b16, .b16⟩, ⟨.n .b16, .e .b8, .b16, .b16⟩, ⟨.e .b8, .e .b8, .b8, .b8⟩,
   ⟨.e .b8, .n .b8, .b8, .b8⟩, ⟨.n .b8, .e .b8, .b8, .b8⟩]

/-- The overloads of `operator*` with two operands, daw_uint_types.h 1573-1620, 2004-2046, 2314-2341, 2553-2567. -/
def mulTable : List Overload :=
  [⟨.e .b64, .e .b64, .b64, .b64⟩, ⟨.e .b64, .e .b32, .b64, .b64⟩, ⟨.e .b64, .e .b16, .b64, .b64⟩, ⟨.e .b64, .e .b8, .b64, .b64⟩, ⟨.e .b32, .e .b64, .b64, .b64⟩,
   ⟨.e .b16, .e .b64, .b64, .b64⟩, ⟨.e .b8, .e .b64, .b64, .b64⟩, ⟨.e .b64, .n .b64, .b64, .b64⟩, ⟨.n .b64, .e .b64, .b64, .b64⟩, ⟨.e .b32, .e .b32, .b32, .b32⟩,
   ⟨.e .b32, .e .b16, .b32, .b32⟩, ⟨.e .b32, .e .b8, .b32, .b32⟩, ⟨.e .b16, .e .b32, .b32, .b32⟩, ⟨.e .b8, .e .b32, .b32, .b32⟩, ⟨.e .b32, .n .b32, .b32, .b32⟩,
   ⟨.n .b32, .e .b32, .b32, .b32⟩, ⟨.n .b32, .e .b16, .b32, .b32⟩, ⟨.n .b32, .e .b8, .b32, .b32⟩, ⟨.e .b16, .e .b16, .b16, .b16⟩, ⟨.e .b16, .e .b8, .b16, .b16⟩,
   ⟨.e .b8, .e .b16, .b16, .b16⟩, ⟨.e .b16, .n .b16, .b16, .b16⟩, ⟨.e .b8, .n .b16, .b16, .b16⟩, ⟨.n .b16, .e .b16, .b16, .b16⟩, ⟨.e .b8, .e .b8, .b8, .b8⟩,
   ⟨.e .b8, .n .b64, .b8, .b8⟩, ⟨.n .b8, .e .b64, .b8, .b8⟩]

/-- The overloads of `operator/` with two operands, daw_uint_types.h 1675-1736, 2077-2120, 2374-2404, 2586-2601. -/
def divTable : List Overload :=
  [⟨.e .b64, .e .b64, .b64, .b64⟩, ⟨.e .b64, .e .b32, .b64, .b64⟩, ⟨.e .b64, .e .b16, .b64, .b64⟩, ⟨.e .b64, .e .b8, .b64, .b64⟩, ⟨.e .b32, .e .b64, .b64, .b64⟩,
   ⟨.e .b16, .e .b64, .b64, .b64⟩, ⟨.e .b8, .e .b64, .b64, .b64⟩, ⟨.e .b64, .n .b64, .b64, .b64⟩, ⟨.n .b64, .e .b64, .b64, .b64⟩, ⟨.n .b64, .e .b32, .b64, .b64⟩,
   ⟨.n .b64, .e .b16, .b64, .b64⟩, ⟨.n .b64, .e .b8, .b64, .b64⟩, ⟨.e .b32, .e .b32, .b32, .b32⟩, ⟨.e .b32, .e .b16, .b32, .b32⟩, ⟨.e .b32, .e .b8, .b32, .b32⟩,
   ⟨.e .b16, .e .b32, .b32, .b32⟩, ⟨.e .b8, .e .b32, .b32, .b32⟩, ⟨.e .b32, .n .b32, .b32, .b32⟩, ⟨.n .b32, .e .b32, .b32, .b32⟩, ⟨.n .b32, .e .b16, .b32, .b32⟩,
   ⟨.n .b32, .e .b8, .b32, .b32⟩, ⟨.e .b16, .e .b16, .b16, .b16⟩, ⟨.e .b16, .e .b8, .b16, .b16⟩, ⟨.e .b8, .e .b16, .b16, .b16⟩, ⟨.e .b16, .n .b16, .b16, .b16⟩,
   ⟨.n .b16, .e .b16, .b16, .b16⟩, ⟨.n .b16, .e .b8, .b16, .b16⟩, ⟨.e .b8, .e .b8, .b8, .b8⟩, ⟨.e .b8, .n .b64, .b8, .b8⟩, ⟨.n .b8, .e .b64, .b8, .b8⟩]

/-- The overloads of `operator==` with two operands, daw_uint_types.h 367-405, 976-986, 1287-1297, 2840-2850. -/
def eqTable : List Overload :=
  [⟨.e .b64, .n .b64, .b64, .b64⟩, ⟨.e .b64, .e .b32, .b64, .b64⟩, ⟨.e .b64, .e .b16, .b64, .b64⟩, ⟨.e .b64, .e .b8, .b64, .b64⟩, ⟨.n .b64, .e .b64, .b64, .b64⟩,
   ⟨.n .b64, .e .b32, .b64, .b64⟩, ⟨.n .b64, .e .b16, .b64, .b64⟩, ⟨.n .b64, .e .b8, .b64, .b64⟩, ⟨.e .b32, .n .b32, .b32, .b32⟩, ⟨.n .b32, .e .b32, .b32, .b32⟩,
   ⟨.e .b16, .n .b16, .b32, .b32⟩, ⟨.n .b16, .e .b16, .b32, .b32⟩, ⟨.e .b8, .n .b8, .b32, .b32⟩, ⟨.n .b8, .e .b8, .b32, .b32⟩]

/-- The overloads of `operator!=` with two operands, daw_uint_types.h 407-415, 988-998, 1299-1309, 2852-2862. -/
def neTable : List Overload :=
  [⟨.e .b64, .n .b64, .b64, .b64⟩, ⟨.n .b64, .e .b64, .b64, .b64⟩, ⟨.e .b32, .n .b32, .b32, .b32⟩, ⟨.n .b32, .e .b32, .b32, .b32⟩, ⟨.e .b16, .n .b16, .b32, .b32⟩,
   ⟨.n .b16, .e .b16, .b32, .b32⟩, ⟨.e .b8, .n .b8, .b32, .b32⟩, ⟨.n .b8, .e .b8, .b32, .b32⟩]

/-- The overloads of `operator>` with two operands, daw_uint_types.h 417-455, 1311-1321, 2756-2766. -/
def gtTable : List Overload :=
  [⟨.e .b64, .n .b64, .b64, .b64⟩, ⟨.e .b32, .n .b64, .b64, .b64⟩, ⟨.e .b16, .n .b64, .b64, .b64⟩, ⟨.e .b8, .n .b64, .b64, .b64⟩, ⟨.n .b64, .e .b64, .b64, .b64⟩,
   ⟨.n .b64, .e .b32, .b64, .b64⟩, ⟨.n .b64, .e .b16, .b64, .b64⟩, ⟨.n .b64, .e .b8, .b64, .b64⟩, ⟨.e .b16, .n .b16, .b32, .b32⟩, ⟨.n .b16, .e .b16, .b32, .b32⟩,
   ⟨.e .b8, .n .b8, .b32, .b32⟩, ⟨.n .b8, .e .b8, .b32, .b32⟩]

/-- The overloads of `operator>=` with two operands, daw_uint_types.h 457-495, 904-914, 1323-1333, 2768-2778. -/
def geTable : List Overload :=
  [⟨.e .b64, .n .b64, .b64, .b64⟩, ⟨.e .b32, .n .b64, .b64, .b64⟩, ⟨.e .b16, .n .b64, .b64, .b64⟩, ⟨.e .b8, .n .b64, .b64, .b64⟩, ⟨.n .b64, .e .b64, .b64, .b64⟩,
   ⟨.n .b64, .e .b32, .b64, .b64⟩, ⟨.n .b64, .e .b16, .b64, .b64⟩, ⟨.n .b64, .e .b8, .b64, .b64⟩, ⟨.e .b32, .n .b32, .b32, .b32⟩, ⟨.n .b32, .e .b32, .b32, .b32⟩,
   ⟨.e .b16, .n .b16, .b32, .b32⟩, ⟨.n .b16, .e .b16, .b32, .b32⟩, ⟨.e .b8, .n .b8, .b32, .b32⟩, ⟨.n .b8, .e .b8, .b32, .b32⟩]

/-- The overloads of `operator<` with two operands, daw_uint_types.h 497-520, 916-926, 1335-1345, 2780-2790. -/
def ltTable : List Overload :=
  [⟨.e .b64, .n .b64, .b64, .b64⟩, ⟨.n .b64, .e .b64, .b64, .b64⟩, ⟨.n .b64, .e .b32, .b64, .b64⟩, ⟨.n .b64, .e .b16, .b64, .b64⟩, ⟨.n .b64, .e .b8, .b64, .b64⟩,
   ⟨.e .b32, .n .b32, .b32, .b32⟩, ⟨.n .b32, .e .b32, .b32, .b32⟩, ⟨.e .b16, .n .b16, .b32, .b32⟩, ⟨.n .b16, .e .b16, .b32, .b32⟩, ⟨.e .b8, .n .b8, .b32, .b32⟩,
   ⟨.n .b8, .e .b8, .b32, .b32⟩]

/-- The overloads of `operator<=` with two operands, daw_uint_types.h 522-560, 928-938, 1347-1357, 2792-2802. -/
def leTable : List Overload :=
  [⟨.e .b64, .n .b64, .b64, .b64⟩, ⟨.e .b32, .n .b64, .b64, .b64⟩, ⟨.e .b16, .n .b64, .b64, .b64⟩, ⟨.e .b8, .n .b64, .b64, .b64⟩, ⟨.n .b64, .e .b64, .b64, .b64⟩,
   ⟨.n .b64, .e .b32, .b64, .b64⟩, ⟨.n .b64, .e .b16, .b64, .b64⟩, ⟨.n .b64, .e .b8, .b64, .b64⟩, ⟨.e .b32, .n .b32, .b32, .b32⟩, ⟨.n .b32, .e .b32, .b32, .b32⟩,
   ⟨.e .b16, .n .b16, .b32, .b32⟩, ⟨.n .b16, .e .b16, .b32, .b32⟩, ⟨.e .b8, .n .b8, .b32, .b32⟩, ⟨.n .b8, .e .b8, .b32, .b32⟩]

/-- The operators. (Specification, no line of the source.) -/
inductive Op
  | add | sub | mul | div | or | and | xor | shl | shr | eq | ne | gt | ge | lt | le
  deriving DecidableEq

/-- The overloads for scoped enumerations that are built in: comparisons of two of the same type. (Rule of C++ or its library, no line of the source.) -/
def builtIn : List Overload := [⟨.e .b8, .e .b8, .b8, .b8⟩, ⟨.e .b16, .e .b16, .b16, .b16⟩, ⟨.e .b32, .e .b32, .b32, .b32⟩, ⟨.e .b64, .e .b64, .b64, .b64⟩]

/-- The candidates of a call. (Rule of C++ or its library, no line of the source.) -/
def Op.table : Op → List Overload
  | .add => addTable
  | .sub => subTable
  | .mul => mulTable
  | .div => divTable
  | .or => orTable
  | .and => andTable
  | .xor => xorTable
  | .shl => shlTable
  | .shr => shrTable
  | .eq => eqTable ++ builtIn
  | .ne => neTable ++ builtIn
  | .gt => gtTable ++ builtIn
  | .ge => geTable ++ builtIn
  | .lt => ltTable ++ builtIn
  | .le => leTable ++ builtIn

/-- The rank of the conversion of an argument to a parameter: 0 for the same type, 1 for a conversion of integers; there is none from or to a scoped enumeration, and none of the parameters is
one that a smaller type is promoted to. (Rule of C++ or its library, no line of the source.) -/
def rank : Arg → Param → Option Nat
  | .e w, .e v => if w = v then some 0 else none
  | .n w, .n v => if w = v then some 0 else some 1
  | .other, .n _ => some 1
  | _, _ => none

/-- The ranks of both conversions, if there are any. (Rule of C++ or its library, no line of the source.) -/
def ranks (l r : Arg) (o : Overload) : Option (Nat × Nat) :=
  match rank l o.l, rank r o.r with
  | some a, some b => some (a, b)
  | _, _ => none

/-- An overload is better than another: no conversion is worse and one is better. (Rule of C++ or its library, no line of the source.) -/
def better (l r : Arg) (o p : Overload) : Bool :=
  match ranks l r o, ranks l r p with
  | some (a, b), some (c, d) => decide (a ≤ c ∧ b ≤ d ∧ (a < c ∨ b < d))
  | some _, none => true
  | none, _ => false

/-- The overload a call means, by the rules of C++17; none if there is none or if several are equally good, in which case the call does not compile.
(Rule of C++ or its library, no line of the source.) -/
def resolve (op : Op) (l r : Arg) : Option Overload :=
  op.table.find? fun o => (ranks l r o).isSome && op.table.all fun p => decide (p = o) || better l r o p

/-- The value of an argument as that of a parameter: modulo a power of two, which changes nothing for enumerations. (Rule of C++ or its library, no line of the source.) -/
def toParam (p : Param) (v : Int) : Nat := (v % 2 ^ p.bits).toNat

/-- The operation on numbers. (Specification, no line of the source.) -/
def Op.on : Op → Nat → Nat → Int
  | .add, x, y => x + y
  | .sub, x, y => x - y
  | .mul, x, y => x * y
  | .or, x, y => (x ||| y : Nat)
  | .and, x, y => (x &&& y : Nat)
  | .xor, x, y => (x ^^^ y : Nat)
  | _, _, _ => 0

/-- The relation on numbers. (Specification, no line of the source.) -/
def Op.rel : Op → Int → Int → Bool
  | .eq, x, y => decide (x = y)
  | .ne, x, y => decide (x ≠ y)
  | .gt, x, y => decide (x > y)
  | .ge, x, y => decide (x ≥ y)
  | .lt, x, y => decide (x < y)
  | .le, x, y => decide (x ≤ y)
  | _, _, _ => false

/-- The result of an overload of `+`, `-`, `*`, `|`, `&`, `^`: the operands are converted to the parameters, and the result to its type, daw_uint_types.h 1424-1461 (`+`), 1495-1536 (`-`), 1573-1620
(`*`), 337-365, 562-665 (bitwise operators) and those of the smaller types at the lines of the tables; the steps in between are those of C173. -/
def value (op : Op) (o : Overload) (x y : Int) : Int := op.on (toParam o.l x) (toParam o.r y) % 2 ^ o.res.bits

/-- The result of an overload of a comparison, daw_uint_types.h 367-560 (`UInt64`), 892-998 (`UInt32`), 1287-1357 (`UInt16`), 2756-2802, 2840-2862 (`UInt8`): both operands are converted to
the parameters and those to the type of the comparison. -/
def compare (op : Op) (o : Overload) (x y : Int) : Bool :=
  op.rel ((toParam o.l x % 2 ^ o.width.bits : Nat) : Int) ((toParam o.r y % 2 ^ o.width.bits : Nat) : Int)

/-- The result of an overload of a shift, daw_uint_types.h 132-230 (`UInt64`), 745-815 (`UInt32`), 1139-1183 (`UInt16`), 2671-2709 (`UInt8`). -/
def shift (op : Op) (o : Overload) (x y : Int) : Cxx Nat := do
  let z ← (if op = .shl then ushl o.width.bits (toParam o.l x) (toParam o.r y) else ushr o.width.bits (toParam o.l x) (toParam o.r y))
  pure (z % 2 ^ o.res.bits)

/-- `++value` and `value++` leave this value, in an unsigned type of `c` bits, daw_uint_types.h 1751-1760 (64), 2135-2144 (32), 2419-2428 (16, in `uint32_t`), 2616-2625 (8, in `uint32_t`). -/
def increment (c w value : Nat) : Nat := (value + 1) % 2 ^ c % 2 ^ w

/-- `--value` and `value--` leave this value, daw_uint_types.h 1762-1771 (64), 2146-2155 (32), 2430-2439 (16), 2627-2636 (8). -/
def decrement (c w value : Nat) : Nat := (value + 2 ^ c - 1) % 2 ^ c % 2 ^ w

/-- `~value`, daw_uint_types.h 1773-1775 (64), 2157-2159 (32), 2441-2443 (16), 2638-2640 (8). -/
def complement (c w value : Nat) : Nat := (2 ^ c - 1 - value) % 2 ^ w

/-- All widths. (Specification, no line of the source.) -/
def widths : List W := [.b8, .b16, .b32, .b64]

/-- All types of arguments. (Specification, no line of the source.) -/
def args : List Arg := widths.map .e ++ widths.map .n ++ [.other]

/-- All operators. (Specification, no line of the source.) -/
def ops : List Op := [.add, .sub, .mul, .div, .or, .and, .xor, .shl, .shr, .eq, .ne, .gt, .ge, .lt, .le]

theorem mem_args (a : Arg) : a ∈ args := by
  cases a with
  | e w => cases w <;> decide
  | n w => cases w <;> decide
  | other => decide

theorem mem_ops (op : Op) : op ∈ ops := by cases op <;> decide

theorem mem_widths (w : W) : w ∈ widths := by cases w <;> decide

/-- The operators of C338. (Specification, no line of the source.) -/
def Op.Arithmetic (op : Op) : Prop := op ∈ [.add, .sub, .mul, .or, .and, .xor]

instance (op : Op) : Decidable op.Arithmetic := by unfold Op.Arithmetic; infer_instance

/-- The comparisons. (Specification, no line of the source.) -/
def Op.Comparison (op : Op) : Prop := op ∈ [.eq, .ne, .gt, .ge, .lt, .le]

instance (op : Op) : Decidable op.Comparison := by unfold Op.Comparison; infer_instance

/-- The shifts. (Specification, no line of the source.) -/
def Op.Shift (op : Op) : Prop := op = .shl ∨ op = .shr

instance (op : Op) : Decidable op.Shift := by unfold Op.Shift; infer_instance

/-- An enumeration and a `std::uintN_t` that is not wider, in either order, or two enumerations. (Specification, no line of the source.) -/
def NotWider : Arg → Arg → Prop
  | .e _, .e _ => True
  | .e w, .n v => v.bits ≤ w.bits
  | .n v, .e w => v.bits ≤ w.bits
  | _, _ => False

instance (l r : Arg) : Decidable (NotWider l r) := by unfold NotWider; split <;> infer_instance

/-- The number of bits of an argument; those of other types are not used. (Specification, no line of the source.) -/
def Arg.bits : Arg → Nat
  | .e w => w.bits
  | .n w => w.bits
  | .other => 0

theorem toParam_eq {p : Param} {b x : Nat} (h : b ≤ p.bits) (hx : x < 2 ^ b) : toParam p (x : Int) = x := by
  unfold toParam
  have h1 : (2 : Nat) ^ b ≤ 2 ^ p.bits := Nat.pow_le_pow_right (by omega) h
  have h2 : (x : Int) % 2 ^ p.bits = x := Int.emod_eq_of_lt (by omega) (by exact_mod_cast (by omega : x < 2 ^ p.bits))
  rw [h2, Int.toNat_natCast]

/-- Whatever the widths are: the candidates chosen for arithmetic operators lose nothing of their operands and the type of the result is wide enough. -/
theorem arithmetic_fits : ∀ op ∈ ops, ∀ l ∈ args, ∀ r ∈ args, op.Arithmetic → NotWider l r → ¬ (op = .mul ∧ l = .n .b8 ∧ r = .e .b64) → ∀ o ∈ (resolve op l r).toList,
    l.bits ≤ o.l.bits ∧ r.bits ≤ o.r.bits ∧ l.bits ≤ o.res.bits ∧ r.bits ≤ o.res.bits := by
  decide +kernel

/-- If a call with two enumerations, or with one and a `std::uintN_t` that is not wider, compiles, its result is that of the operation modulo two to the width of its type, which is at least the wider of
the two; all but a `uint8_t` times a `UInt64`. -/
theorem C338_arithmetic_partial (op : Op) (hop : op.Arithmetic) (l r : Arg) (h : NotWider l r) (hx : ¬ (op = .mul ∧ l = .n .b8 ∧ r = .e .b64)) (o : Overload)
    (ho : resolve op l r = some o) (x y : Nat) (hxl : x < 2 ^ l.bits) (hyr : y < 2 ^ r.bits) :
    value op o x y = op.on x y % 2 ^ o.res.bits ∧ l.bits ≤ o.res.bits ∧ r.bits ≤ o.res.bits := by
  obtain ⟨h1, h2, h3, h4⟩ := arithmetic_fits op (mem_ops op) l (mem_args l) r (mem_args r) hop h hx o (by rw [ho]; simp)
  exact ⟨by unfold value; rw [toParam_eq h1 hxl, toParam_eq h2 hyr], h3, h4⟩

example : value .mul ⟨.n .b32, .e .b8, .b32, .b32⟩ (200 : Nat) (100 : Nat) = 20000 :=
  (C338_arithmetic_partial .mul (by decide) (.n .b8) (.e .b8) (by decide) (by decide) ⟨.n .b32, .e .b8, .b32, .b32⟩ (by decide +kernel) 200 100 (by decide) (by decide)).1

/-- Of two enumerations `+`, `-`, `*` and `/` always compile, and the result has the wider of the two types. -/
theorem C338_enums (op : Op) (hop : op ∈ [Op.add, .sub, .mul, .div]) (v w : W) :
    ∃ o, resolve op (.e v) (.e w) = some o ∧ o.l = .e v ∧ o.r = .e w ∧ o.res.bits = max v.bits w.bits := by
  have h : ∀ op ∈ [Op.add, .sub, .mul, .div], ∀ v ∈ widths, ∀ w ∈ widths, ((resolve op (.e v) (.e w)).any fun o => decide (o.l = .e v ∧ o.r = .e w ∧
      o.res.bits = max v.bits w.bits)) = true := by decide +kernel
  have h1 := h op hop v (mem_widths v) w (mem_widths w)
  cases hr : resolve op (.e v) (.e w) with
  | none => rw [hr] at h1; simp at h1
  | some o => rw [hr] at h1; exact ⟨o, rfl, by simpa using h1⟩

example : ∃ o, resolve .sub (.e .b8) (.e .b64) = some o ∧ o.l = .e .b8 ∧ o.r = .e .b64 ∧ o.res.bits = 64 := C338_enums .sub (by decide) .b8 .b64

/-- A `uint64_t` added to a `UInt32` is cut to 32 bits, a `uint8_t` times a `UInt64` is cut to 8 bits, and `uint8_t` times `UInt8` has 32 bits. -/
theorem C338_values_violated :
    (∃ o, resolve .add (.e .b32) (.n .b64) = some o ∧ ∀ x y : Nat, value .add o x (2 ^ 32 * y : Nat) = x % 2 ^ 32) ∧
    (∃ o, resolve .mul (.n .b8) (.e .b64) = some o ∧ value .mul o (1 : Nat) (256 : Nat) = 0) ∧
    (∃ o, resolve .mul (.n .b8) (.e .b8) = some o ∧ o.res = .b32) := by
  refine ⟨⟨⟨.e .b32, .n .b32, .b32, .b32⟩, by decide +kernel, fun x y => ?_⟩, ⟨⟨.n .b8, .e .b64, .b8, .b8⟩, by decide +kernel, by decide +kernel⟩,
    ⟨⟨.n .b32, .e .b8, .b32, .b32⟩, by decide +kernel, rfl⟩⟩
  have h1 : toParam (.n .b32) ((2 ^ 32 * y : Nat) : Int) = 0 := by simp only [toParam, Param.bits, W.bits]; omega
  have h2 : toParam (.e .b32) (x : Int) = x % 2 ^ 32 := by simp only [toParam, Param.bits, W.bits]; omega
  unfold value
  simp only [h1, h2, Op.on, W.bits]
  omega

/-- With a literal of type `int` the choice of the width decides about compilation: `UInt8 - 1`, `UInt16 - 1` and `UInt16 * 2` compile, `UInt8 + 1`, `UInt16 + 1`, `UInt8 * 2`, `1 + UInt16` and
`2 * UInt64` are ambiguous; so is `UInt16 + uint8_t`; and `UInt16 | UInt8` compiles, but there is no `UInt8 | UInt16`. -/
theorem C338_compiles_violated :
    (∀ c ∈ [(Op.sub, Arg.e .b8, Arg.other), (.sub, .e .b16, .other), (.mul, .e .b16, .other), (.or, .e .b16, .e .b8), (.and, .e .b16, .e .b8), (.xor, .e .b16, .e .b8)],
      (resolve c.1 c.2.1 c.2.2).isSome = true) ∧
    (∀ c ∈ [(Op.add, Arg.e .b8, Arg.other), (.add, .e .b16, .other), (.mul, .e .b8, .other), (.add, .other, .e .b16), (.mul, .other, .e .b64), (.add, .e .b16, .n .b8), (.or, .e .b8, .e .b16),
      (.and, .e .b8, .e .b16), (.xor, .e .b8, .e .b16)], resolve c.1 c.2.1 c.2.2 = none) := by
  decide +kernel

/-- A parameter holds all values of its argument, if that is an enumeration, and else those of the other one. (Specification, no line of the source.) -/
def covers (a b : Arg) (p : Param) : Bool :=
  match a, b with
  | .e w, _ => decide (p = .e w)
  | _, .e w => decide (w.bits ≤ p.bits)
  | _, _ => true

theorem comparison_fits : ∀ op ∈ ops, ∀ l ∈ args, ∀ r ∈ args, op.Comparison → ∀ o ∈ (resolve op l r).toList,
    o.l.bits ≤ o.width.bits ∧ o.r.bits ≤ o.width.bits ∧
    covers l r o.l = true ∧ covers r l o.r = true := by
  decide +kernel

/-- The numbers of a comparison: those of enumerations have their widths, and an operand of another type is not negative and less than two to the width of the enumeration.
(Specification, no line of the source.) -/
def InRange : Arg → Arg → Nat → Nat → Prop
  | .e v, .e w, x, y => x < 2 ^ v.bits ∧ y < 2 ^ w.bits
  | .e w, _, x, y => x < 2 ^ w.bits ∧ y < 2 ^ w.bits
  | _, .e w, x, y => x < 2 ^ w.bits ∧ y < 2 ^ w.bits
  | _, _, _, _ => False

theorem compare_eq {op : Op} {o : Overload} {b c x y : Nat} (h1 : o.l.bits ≤ o.width.bits) (h2 : o.r.bits ≤ o.width.bits) (hb : b ≤ o.l.bits) (hc : c ≤ o.r.bits)
    (hx : x < 2 ^ b) (hy : y < 2 ^ c) : compare op o x y = op.rel x y := by
  unfold compare
  have e1 : (2 : Nat) ^ b ≤ 2 ^ o.width.bits := Nat.pow_le_pow_right (by omega) (by omega)
  have e2 : (2 : Nat) ^ c ≤ 2 ^ o.width.bits := Nat.pow_le_pow_right (by omega) (by omega)
  rw [toParam_eq hb hx, toParam_eq hc hy, Nat.mod_eq_of_lt (by omega), Nat.mod_eq_of_lt (by omega)]

/-- A comparison that compiles is exact if an operand that is not an enumeration is a value of the type of the other operand. -/
theorem C339_comparison_partial (op : Op) (hop : op.Comparison) (l r : Arg) (o : Overload) (ho : resolve op l r = some o) (x y : Nat) (h : InRange l r x y) :
    compare op o x y = op.rel x y := by
  obtain ⟨h1, h2, h3, h4⟩ := comparison_fits op (mem_ops op) l (mem_args l) r (mem_args r) hop o (by rw [ho]; simp)
  cases l with
  | e v =>
    cases r with
    | e w =>
      have h3 : o.l = .e v := by simpa [covers] using h3
      have h4 : o.r = .e w := by simpa [covers] using h4
      exact compare_eq h1 h2 (b := v.bits) (c := w.bits) (by rw [h3]; exact Nat.le_refl _) (by rw [h4]; exact Nat.le_refl _) h.1 h.2
    | n w =>
      have h3 : o.l = .e v := by simpa [covers] using h3
      exact compare_eq h1 h2 (b := v.bits) (c := v.bits) (by rw [h3]; exact Nat.le_refl _) (by simpa [covers] using h4) h.1 h.2
    | other =>
      have h3 : o.l = .e v := by simpa [covers] using h3
      exact compare_eq h1 h2 (b := v.bits) (c := v.bits) (by rw [h3]; exact Nat.le_refl _) (by simpa [covers] using h4) h.1 h.2
  | n v =>
    cases r with
    | e w =>
      have h4 : o.r = .e w := by simpa [covers] using h4
      exact compare_eq h1 h2 (b := w.bits) (c := w.bits) (by simpa [covers] using h3) (by rw [h4]; exact Nat.le_refl _) h.1 h.2
    | n w => exact h.elim
    | other => exact h.elim
  | other =>
    cases r with
    | e w =>
      have h4 : o.r = .e w := by simpa [covers] using h4
      exact compare_eq h1 h2 (b := w.bits) (c := w.bits) (by simpa [covers] using h3) (by rw [h4]; exact Nat.le_refl _) h.1 h.2
    | n w => exact h.elim
    | other => exact h.elim

example : compare .lt ⟨.e .b8, .n .b8, .b32, .b32⟩ (3 : Nat) (255 : Nat) = true :=
  C339_comparison_partial .lt (by decide) (.e .b8) .other ⟨.e .b8, .n .b8, .b32, .b32⟩ (by decide +kernel) 3 255 ⟨by decide, by decide⟩

/-- `>`, `>=` and `<=` with a `std::uint64_t` are exact for all values. -/
theorem C339_wide (op : Op) (hop : op = .gt ∨ op = .ge ∨ op = .le) (w : W) :
    ∃ o, resolve op (.e w) (.n .b64) = some o ∧ ∀ x y : Nat, x < 2 ^ w.bits → y < 2 ^ 64 → compare op o x y = op.rel x y := by
  have h : ∀ op ∈ [Op.gt, .ge, .le], ∀ w ∈ widths, ((resolve op (.e w) (.n .b64)).any fun o => decide (o.l = .e w ∧ o.r = .n .b64 ∧ o.width = .b64)) = true := by decide +kernel
  have h1 := h op (by rcases hop with rfl | rfl | rfl <;> decide) w (mem_widths w)
  cases hr : resolve op (.e w) (.n .b64) with
  | none => rw [hr] at h1; simp at h1
  | some o =>
    rw [hr] at h1
    simp only [Option.any_some, decide_eq_true_eq] at h1
    obtain ⟨a, b, c⟩ := h1
    refine ⟨o, rfl, fun x y hx hy => ?_⟩
    have hw : o.l.bits ≤ o.width.bits := by rw [a, c]; cases w <;> decide
    exact compare_eq hw (by rw [b, c]; exact Nat.le_refl _) (b := w.bits) (c := 64) (by rw [a]; exact Nat.le_refl _) (by rw [b]; exact Nat.le_refl _) hx hy

example : ∃ o, resolve .gt (.e .b8) (.n .b64) = some o ∧ ∀ x y : Nat, x < 2 ^ 8 → y < 2 ^ 64 → compare .gt o x y = decide ((x : Int) > y) := C339_wide .gt (Or.inl rfl) .b8

/-- An operand that is wider than the enumeration is cut before it is compared: every value of type `UInt8` is equal to itself plus 256 and not less than it, and `-1` is equal to the greatest `UInt32`. -/
theorem C339_values_violated :
    (∃ o, resolve .eq (.e .b8) .other = some o ∧ ∀ x : Nat, x < 256 → compare .eq o x (x + 256 : Nat) = true) ∧
    (∃ o, resolve .lt (.e .b8) .other = some o ∧ ∀ x : Nat, x < 256 → compare .lt o x (x + 256 : Nat) = false) ∧
    (∃ o, resolve .eq (.e .b32) .other = some o ∧ compare .eq o (2 ^ 32 - 1 : Nat) (-1) = true) := by
  refine ⟨⟨⟨.e .b8, .n .b8, .b32, .b32⟩, by decide +kernel, fun x hx => ?_⟩, ⟨⟨.e .b8, .n .b8, .b32, .b32⟩, by decide +kernel, fun x hx => ?_⟩,
    ⟨⟨.e .b32, .n .b32, .b32, .b32⟩, by decide +kernel, by decide +kernel⟩⟩
  all_goals
    have e1 : toParam (.e .b8) (x : Int) = x := by simp only [toParam, Param.bits, W.bits]; omega
    have e2 : toParam (.n .b8) ((x + 256 : Nat) : Int) = x := by simp only [toParam, Param.bits, W.bits]; omega
    unfold compare
    rw [e1, e2]
    simp [Op.rel]

/-- Which comparisons with a literal compile depends on the operator, on the width and on the side: `UInt32 < 5`, `UInt32 > 5` and `5 != UInt32` do, `UInt32 >= 5`, `UInt32 <= 5`, `UInt8 > 5`, `5 < UInt32` and
`5 == UInt32` are ambiguous; and of enumerations of different widths only `UInt64 == UInt32` (16, 8) can be compared, not the other way around. -/
theorem C339_compiles_violated :
    (∀ c ∈ [(Op.lt, Arg.e .b32, Arg.other), (.gt, .e .b32, .other), (.ne, .other, .e .b32), (.eq, .e .b32, .other), (.eq, .e .b64, .e .b32)], (resolve c.1 c.2.1 c.2.2).isSome = true) ∧
    (∀ c ∈ [(Op.ge, Arg.e .b32, Arg.other), (.le, .e .b32, .other), (.gt, .e .b8, .other), (.lt, .other, .e .b32), (.eq, .other, .e .b32), (.eq, .e .b32, .e .b64), (.ne, .e .b64, .e .b32),
      (.lt, .e .b32, .e .b64)], resolve c.1 c.2.1 c.2.2 = none) := by
  decide +kernel

theorem shift_fits : ∀ op ∈ ops, ∀ v ∈ widths, ∀ r ∈ args, op.Shift → ∀ o ∈ (resolve op (.e v) r).toList,
    o.l = .e v ∧ o.res = v ∧ o.width.bits = max v.bits 32 ∧ 8 ≤ o.r.bits := by
  decide +kernel

/-- A shift of an enumeration of `w` bits that compiles is exact modulo 2^w for all counts less than 32 (64 for `UInt64`). -/
theorem C340_shift_partial (w : W) (r : Arg) (x n : Nat) (hx : x < 2 ^ w.bits) (hn : n < max w.bits 32) :
    (∀ o, resolve .shl (.e w) r = some o → shift .shl o x n = pure (x * 2 ^ n % 2 ^ w.bits)) ∧
    (∀ o, resolve .shr (.e w) r = some o → shift .shr o x n = pure (x / 2 ^ n)) := by
  have hw8 : 8 ≤ w.bits ∧ w.bits ≤ 64 := by cases w <;> decide
  constructor
  · intro o ho
    obtain ⟨h1, h2, h3, h4⟩ := shift_fits .shl (by decide) w (mem_widths w) r (mem_args r) (Or.inl rfl) o (by rw [ho]; simp)
    have e1 : toParam o.l (x : Int) = x := toParam_eq (b := w.bits) (by rw [h1]; exact Nat.le_refl _) hx
    have e2 : toParam o.r (n : Int) = n := toParam_eq (b := 8) h4 (by omega)
    unfold shift ushl
    rw [if_pos rfl, e1, e2, h3, h2, if_pos hn, pure_bind, Nat.shiftLeft_eq, Nat.mod_mod_of_dvd _ (Nat.pow_dvd_pow 2 (Nat.le_max_left _ _))]
  · intro o ho
    obtain ⟨h1, h2, h3, h4⟩ := shift_fits .shr (by decide) w (mem_widths w) r (mem_args r) (Or.inr rfl) o (by rw [ho]; simp)
    have e1 : toParam o.l (x : Int) = x := toParam_eq (b := w.bits) (by rw [h1]; exact Nat.le_refl _) hx
    have e2 : toParam o.r (n : Int) = n := toParam_eq (b := 8) h4 (by omega)
    unfold shift ushr
    rw [if_neg (by decide), e1, e2, h3, h2, if_pos hn, pure_bind, Nat.shiftRight_eq_div_pow, Nat.mod_eq_of_lt (Nat.lt_of_le_of_lt (Nat.div_le_self _ _) hx)]

example : shift .shl ⟨.e .b8, .n .b8, .b32, .b8⟩ (255 : Nat) (9 : Nat) = pure 0 :=
  (C340_shift_partial .b8 .other 255 9 (by decide) (by decide)).1 ⟨.e .b8, .n .b8, .b32, .b8⟩ (by decide +kernel)

/-- `++` and `--` are exact modulo 2^w and undo each other; `~` turns every bit. -/
theorem C340_unary (c w value : Nat) (hc : w ≤ c) (hv : value < 2 ^ w) :
    increment c w value = (value + 1) % 2 ^ w ∧ decrement c w value = (value + 2 ^ w - 1) % 2 ^ w ∧ decrement c w (increment c w value) = value ∧
    increment c w (decrement c w value) = value ∧ complement c w value = 2 ^ w - 1 - value ∧ ∀ i < w, (complement c w value).testBit i = !value.testBit i := by
  have hd : 2 ^ w ∣ 2 ^ c := Nat.pow_dvd_pow 2 hc
  have hpos : 0 < 2 ^ w := Nat.two_pow_pos w
  obtain ⟨k, hk⟩ := hd
  have hk0 : 0 < k := by rcases Nat.eq_zero_or_pos k with h | h; · rw [h] at hk; have := Nat.two_pow_pos c; omega
                         · exact h
  have hle : 2 ^ w ≤ 2 ^ c := Nat.pow_le_pow_right (by omega) hc
  have inc : ∀ v, v < 2 ^ w → increment c w v = (v + 1) % 2 ^ w := fun v _ => by unfold increment; rw [Nat.mod_mod_of_dvd _ ⟨k, hk⟩]
  have dec : ∀ v, v < 2 ^ w → decrement c w v = (v + 2 ^ w - 1) % 2 ^ w := by
    intro v hv
    unfold decrement
    rw [Nat.mod_mod_of_dvd _ ⟨k, hk⟩, hk]
    obtain ⟨j, rfl⟩ : ∃ j, k = j + 1 := ⟨k - 1, by omega⟩
    have : v + 2 ^ w * (j + 1) - 1 = (v + 2 ^ w - 1) + 2 ^ w * j := by rw [Nat.mul_add, Nat.mul_one]; omega
    rw [this, Nat.add_mul_mod_self_left]
  have cmp : complement c w value = 2 ^ w - 1 - value := by
    unfold complement
    rw [hk]
    obtain ⟨j, rfl⟩ : ∃ j, k = j + 1 := ⟨k - 1, by omega⟩
    have : 2 ^ w * (j + 1) - 1 - value = (2 ^ w - 1 - value) + 2 ^ w * j := by rw [Nat.mul_add, Nat.mul_one]; omega
    rw [this, Nat.add_mul_mod_self_left, Nat.mod_eq_of_lt (by omega)]
  refine ⟨inc value hv, dec value hv, ?_, ?_, cmp, fun i hi => ?_⟩
  · rw [inc value hv, dec _ (Nat.mod_lt _ hpos)]
    by_cases h : value + 1 = 2 ^ w
    · rw [h, Nat.mod_self, Nat.zero_add, Nat.mod_eq_of_lt (by omega)]; omega
    · rw [Nat.mod_eq_of_lt (by omega : value + 1 < 2 ^ w), show value + 1 + 2 ^ w - 1 = value + 2 ^ w by omega, Nat.add_mod_right, Nat.mod_eq_of_lt hv]
  · rw [dec value hv, inc _ (Nat.mod_lt _ hpos)]
    by_cases h : value = 0
    · subst h
      rw [Nat.zero_add, Nat.mod_eq_of_lt (by omega : 2 ^ w - 1 < 2 ^ w), Nat.sub_add_cancel hpos, Nat.mod_self]
    · rw [show value + 2 ^ w - 1 = (value - 1) + 2 ^ w by omega, Nat.add_mod_right, Nat.mod_eq_of_lt (by omega : value - 1 < 2 ^ w), Nat.sub_add_cancel (by omega), Nat.mod_eq_of_lt hv]
  · rw [cmp, show 2 ^ w - 1 - value = 2 ^ w - (value + 1) by omega, Nat.testBit_two_pow_sub_succ hv]
    simp [hi]

example : decrement 32 8 0 = 255 ∧ complement 32 8 15 = 240 := ⟨by decide, by decide⟩

/-- The count is cut to the width of the value before the shift: a `UInt8` shifted by 256 is unchanged; a `UInt32` shifted by 32 is undefined; and `UInt16 << UInt8` and `uint32_t >> UInt16` compile while
`UInt16 >> UInt8` and `uint32_t << UInt16` do not, nor does any shift by a wider enumeration. -/
theorem C340_violated :
    (∃ o, resolve .shl (.e .b8) .other = some o ∧ ∀ x : Nat, x < 256 → shift .shl o x (256 : Nat) = pure x) ∧
    (∃ o, resolve .shl (.e .b32) .other = some o ∧ ∀ x : Nat, shift .shl o x (32 : Nat) = ub) ∧
    (∀ c ∈ [(Op.shl, Arg.e .b16, Arg.e .b8), (.shr, .n .b32, .e .b16)], (resolve c.1 c.2.1 c.2.2).isSome = true) ∧
    (∀ c ∈ [(Op.shr, Arg.e .b16, Arg.e .b8), (.shl, .n .b32, .e .b16), (.shl, .e .b8, .e .b16), (.shr, .e .b32, .e .b64)], resolve c.1 c.2.1 c.2.2 = none) := by
  refine ⟨⟨⟨.e .b8, .n .b8, .b32, .b8⟩, by decide +kernel, fun x hx => ?_⟩, ⟨⟨.e .b32, .n .b32, .b32, .b32⟩, by decide +kernel, fun x => ?_⟩, by decide +kernel, by decide +kernel⟩
  · have e1 : toParam (.e .b8) (x : Int) = x := by simp only [toParam, Param.bits, W.bits]; omega
    have e2 : toParam (.n .b8) ((256 : Nat) : Int) = 0 := by decide
    unfold shift ushl
    rw [if_pos rfl, e1, e2, if_pos (by decide), pure_bind, Nat.shiftLeft_zero, Nat.mod_mod_of_dvd _ (by decide)]
    exact congrArg pure (Nat.mod_eq_of_lt hx)
  · have e2 : toParam (.n .b32) ((32 : Nat) : Int) = 32 := by decide
    unfold shift ushl
    rw [if_pos rfl, e2]
    rfl

end Verif.Bits.UOps
