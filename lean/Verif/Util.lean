/-
Shared helpers: decidable equality of results, so that concrete runs can be checked by the kernel.
-/
namespace Verif

deriving instance DecidableEq for Except

end Verif
