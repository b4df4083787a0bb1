/-!
# Characters and machine integers

C++ `char` values are modelled by their integer value.  `char` is signed on the library's
platform (x86), so values are in `-128 .. 127`; the engine only compares characters, so the
theorems hold for arbitrary integers, and truncation to `char` is explicit where the code does it.
-/
set_option autoImplicit false
namespace ERegex

/-- Value of a C++ `char` (signed, platform convention recorded in DESIGN.md). -/
notation "Ch" => Int

/-- A pattern token: `e_regex::pack_string<...>` (src/utilities/pack_string.hpp:76-99). -/
notation "Tok" => List Int

/-- A C++ string literal (ASCII) as the list of its characters, without the final NUL
(src/utilities/static_string.hpp:20-27, build_pack_string src/utilities/pack_string.hpp:112-125). -/
def str (s : String) : List Ch := s.toList.map (fun c => (c.toNat : Int))

/-- Conversion of an `int` to `char`: reduction into `-128 .. 127`
(`static constexpr char current = <int>`, src/operators/hex.hpp:22, octal.hpp:21). -/
def toChar (n : Int) : Ch := (n + 128) % 256 - 128

/-- Conversion to `unsigned` (32 bit): reduction modulo `2^32`. -/
def wrap32 (n : Int) : Nat := (n % 4294967296).toNat

/-- `std::numeric_limits<unsigned>::max()`. -/
def umax : Nat := 4294967295

end ERegex
