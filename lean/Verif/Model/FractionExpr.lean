/-
Computations with `Long_fraction` objects: all ways of combining the constructors and operators of
src/lra/Long_fraction.h.
-/
import Verif.Model.LongFraction

namespace Yaga

/-- A computation over the public interface of src/lra/Long_fraction.h:134-140 and 327-395
(constructors from a 32-bit integer, from an unsigned one, from a string; the operators and their
assigning forms; `negate`, `floor`, `ceil`, `inverse`; copying). -/
inductive FExpr where
  | word (n : Int)
  | uword (n : Int)
  | str (r : ℚ)
  | add (a b : FExpr)
  | sub (a b : FExpr)
  | mul (a b : FExpr)
  | div (a b : FExpr)
  | addA (a b : FExpr)
  | subA (a b : FExpr)
  | mulA (a b : FExpr)
  | divA (a b : FExpr)
  | neg (a : FExpr)
  | negate (a : FExpr)
  | inverse (a : FExpr)
  | floor (a : FExpr)
  | ceil (a : FExpr)
  | copy (a : FExpr)
  | cached (a : FExpr)

namespace FExpr

/-- The object that the code computes, src/lra/Long_fraction.h; `none`: undefined behaviour, an abort
or an argument out of range of its type. `cached` is an operand that was used in a GMP operation
before (`force_ensure_mpq_valid`, lines 179-182). -/
def run : FExpr → Option LF
  | word n => if LF.wmin ≤ n ∧ n ≤ LF.wmax then some (LF.ofWord n) else none
  | uword n => if 0 ≤ n ∧ n ≤ LF.uwmax then some (LF.ofUword n) else none
  | str r => some (LF.ofString r)
  | add a b => do LF.add (← a.run) (← b.run)
  | sub a b => do LF.sub (← a.run) (← b.run)
  | mul a b => do LF.mul (← a.run) (← b.run)
  | div a b => do LF.div (← a.run) (← b.run)
  | addA a b => do LF.addA (← a.run) (← b.run)
  | subA a b => do LF.subA (← a.run) (← b.run)
  | mulA a b => do LF.mulA (← a.run) (← b.run)
  | divA a b => do LF.divA (← a.run) (← b.run)
  | neg a => do LF.neg (← a.run)
  | negate a => do pure (LF.negate (← a.run))
  | inverse a => do LF.inverse (← a.run)
  | floor a => do LF.floor (← a.run)
  | ceil a => do LF.ceil (← a.run)
  | copy a => do pure (LF.copy (← a.run))
  | cached a => do pure (LF.ensureMpq (← a.run))

end FExpr
end Yaga
