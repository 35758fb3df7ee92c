/-
Results of methods of the class library: `Except E A` is a value of `A` or an exception.
-/
namespace Avian

deriving instance DecidableEq for Except

end Avian
