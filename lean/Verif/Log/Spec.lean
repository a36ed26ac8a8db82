import Verif.Log.Model
/-!
Specification of a log message.
-/
namespace Bfdev.Log

/-- A format is a sequence of headers, each a byte 1 and one more byte, and the rest, which does not begin with a header. -/
def Splits (fmt : Bytes) (headers : List UInt8) (rest : Bytes) : Prop :=
  fmt = (headers.flatMap fun h => [1, h]) ++ rest ∧ ¬ ∃ h r, rest = 1 :: h :: r

/-- The digits among the headers. -/
def digits (headers : List UInt8) : List Nat := (headers.filter fun h => decide (48 ≤ h.toNat ∧ h.toNat ≤ 57)).map fun h => h.toNat - 48

/-- The level of a message: the last digit, or the default level of the logger if there is none or it is above 7. -/
def chosen (log : Logger) (headers : List UInt8) : Nat :=
  match (digits headers).getLast? with
  | none => log.defaultLevel
  | some d => if d ≤ 7 then d else log.defaultLevel

/-- The names of the levels. -/
def nameOf : Nat → String
  | 0 => "emerg" | 1 => "alert" | 2 => "crit" | 3 => "error" | 4 => "warning" | 5 => "notice" | 6 => "info" | 7 => "debug" | _ => "default"

/-- The terminal colours of the levels. -/
def colorOf : Nat → Nat
  | 0 => 91 | 1 => 31 | 2 => 35 | 3 => 33 | 4 => 34 | 5 => 96 | 6 => 92 | 7 => 90 | _ => 39

/-- The whole message before it is cut to the size of the buffer. -/
def whole (log : Logger) (level : Nat) (text : Bytes) : Bytes :=
  (if log.level then lit "[" ++ lit (nameOf level) ++ lit "] " else []) ++ (if log.color then [27] ++ lit "[" ++ lit (toString (colorOf level)) ++ lit "m" else []) ++
    text ++ (if log.color then [27] ++ lit "[0m" else [])

end Bfdev.Log
