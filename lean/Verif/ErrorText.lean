import Verif.NetText
/-!
# The texts of errors

`Display` of `Error` and `ErrorKind`, src/errors.rs.
-/

namespace JBytes

/-- An ASCII text. -/
def asciiText (s : String) : List Byte := s.toList.map fun c => UInt8.ofNat c.toNat

/-- `Display` of `ErrorKind` (the `#[error(..)]` attributes), src/errors.rs:44-58; `v` is the text in `InvalidValue`. -/
def ErrCode.message (v : List Byte) : ErrCode → List Byte
  | .invalidByteLength => asciiText "invalid byte length"
  | .subSequence => asciiText "find subsequence failure"
  | .fail => asciiText "parse byte failure"
  | .invalidPosition n => asciiText "invalid position (" ++ decimal n ++ asciiText ")"
  | .pushFail => asciiText "invalid buffer memory"
  | .invalidValue => asciiText "invalid value (" ++ v ++ asciiText ")"

/-- `Display` of `Error`, src/errors.rs:25-29. -/
def JErr.text (v : List Byte) (e : JErr) : List Byte :=
  asciiText "[ERROR]: " ++ e.code.message v ++ asciiText ", position: " ++ decimal e.position

end JBytes
