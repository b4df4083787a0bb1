import Verif.Model.Match
/-!
# What the argument of `match` stands for
-/
set_option autoImplicit false
namespace ERegex

/-- The argument of `regex::match` (src/regex.hpp:40-50), which takes a `literal_string_view<>`: a character array with its elements (a string literal,
or a buffer), or a `std::string_view` with its characters.  `before` and `after` are the readable bytes around it.  The other
constructors (default, copy, pair of pointers; src/utilities/literal_string_view.hpp:17-24, 38-47) hand on a view that exists already. -/
inductive Arg
  | array (before data after : List Ch)
  | view (before data after : List Ch)

/-- The constructors of `literal_string_view` (src/utilities/literal_string_view.hpp:26-36): `begin_ = std::begin(data)`, `end_ = std::end(data) - 1`
for an array (an array has at least one element), `data.begin()`, `data.end()` for a `string_view`. -/
def Arg.ctx : Arg → Ctx
  | .array before data after => { pre := before, query := data.dropLast, post := data.getLast?.toList ++ after }
  | .view before data after => { pre := before, query := data, post := after }

end ERegex
