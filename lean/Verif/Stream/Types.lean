/-
User-visible enumerations of the stream headers (/repo/include/cest/ios_base.hpp).
-/
namespace Cest.Stream

/-- A set of stream state bits, `ios_base::iostate` (ios_base.hpp:100-137): one field per bit.  The
enumeration's unused bits are not represented. -/
structure Bits where
  bad : Bool
  eof : Bool
  fail : Bool
  deriving DecidableEq, Repr

/-- A set of open mode bits, `ios_base::openmode` (`binary` and `trunc` are never examined). -/
structure Mode where
  inn : Bool
  out : Bool
  ate : Bool
  app : Bool
  deriving DecidableEq, Repr

end Cest.Stream
