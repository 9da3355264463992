/-
  Error codes (Linux x86-64 values) and results.
-/
import Verif.Base
namespace Dragonstash

/-- An error number; `0` is what the code uses for "end of file" (`make_result(FAILED, 0)`). -/
abbrev Errno := Nat

/-- `Result<T>` (include/dragonstash/error.hpp 40-112): a value or an error number. -/
abbrev Res (α : Type) := Except Errno α

def EOF_ : Errno := 0
def ENOENT : Errno := 2
def EIO : Errno := 5
def EBUSY : Errno := 16
def ENOTDIR : Errno := 20
def EINVAL : Errno := 22
def ENOSYS : Errno := 38
def EDEADLK : Errno := 35
def ENAMETOOLONG : Errno := 36
def ELOOP : Errno := 40
def EBADFD : Errno := 77
def ENOTCONN : Errno := 107
def EALREADY : Errno := 114
def ESTALE : Errno := 116
def ECANCELED : Errno := 125

end Dragonstash
