import Verif.Glob.Model
import Verif.Files.Lists
/-! # The function wildcard -/
namespace Remake

/-- The flags of `string_glob` (function.c 363-367). -/
def wildFlags : SeqFlags := { nostrip := true, nocache := true, exists_ := true }

/-- `string_glob` (function.c 355-403), and with it `func_wildcard` (function.c 1308-1314): each name is copied with a blank, and the
last blank is removed; none is a fatal error.  The growth of the buffer is not represented. -/
def stringGlob (env : FsEnv) (line : Str) : Option Str :=
  (parseFileSeq env wildFlags none (fun _ => false) line).map fun r => (r.1.flatMap (· ++ [' '])).dropLast

end Remake
