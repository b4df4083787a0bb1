import Verif.Spec.Prefer
/-!
# Specification: conditions on a pattern as written

They are about the abstract syntax alone and can be checked by looking at the pattern.
-/
set_option autoImplicit false
namespace ERegex.Spec

/-- `?` or `{0,1}`, greedy. -/
def Quant.maybe (k : Quant) : Bool :=
  match k.mode with
  | .greedy => k.lo == 0 && k.hi == some 1
  | _ => false

mutual
/-- Length of the shortest text, not counting the anchors. -/
def Atom.shortest : Atom → Nat
  | .group _ as => as.shortest
  | _ => 1
def Sq.shortest : Sq → Nat
  | .nil _ => 0
  | .cons a k s => a.shortest * k.lo + s.shortest
def Alts.shortest : Alts → Nat
  | .last _ s => s.shortest
  | .more _ s as => min s.shortest as.shortest
end

/-- `\s` -/
def Item.isSpace : Item → Bool
  | .esc c => c == 115
  | _ => false

mutual
/-- `$` is used only if `dollar`, a negated class lists `\s` only if `space`, and what stands before a greedy `?` (or `{0,1}`) can be as short as
`w` characters. -/
def Atom.tame (dollar space : Bool) (w : Nat) : Atom → Bool
  | .cls true items _ => space || !items.any Item.isSpace
  | .group _ as => as.tame dollar space w
  | _ => true
def Sq.tame (dollar space : Bool) (w : Nat) : Sq → Bool
  | .nil d => !d || dollar
  | .cons a k s => a.tame dollar space w && (!k.maybe || decide (a.shortest ≤ w)) && s.tame dollar space w
def Alts.tame (dollar space : Bool) (w : Nat) : Alts → Bool
  | .last _ s => s.tame dollar space w
  | .more _ s as => s.tame dollar space w && as.tame dollar space w
end

end ERegex.Spec
