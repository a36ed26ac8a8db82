import Verif.Scnprintf.Model
/-!
Model of `src/log/log.c` with `level.c` and `color.c`. Formats and texts are lists of bytes without the terminating NUL. The C library's formatting is a function from the
format to the text; it is assumed to succeed. The writer is told the level and the text. `none` is an access outside an array.
-/
namespace Bfdev.Log
open Bfdev.Scnprintf (vscnprintf stored)

abbrev Bytes := List UInt8

/-- The bytes of a literal. -/
def lit (s : String) : Bytes := s.toList.map fun c => c.toNat.toUInt8

/-- `struct bfdev_log`, log.h:41-48: levels and flags. -/
structure Logger where
  defaultLevel : Nat
  recordLevel : Nat
  color : Bool
  level : Bool

/-- `bfdev_log_default`, log.c:11-17. -/
def defaultLogger : Logger := ⟨8, 8, true, true⟩

/-- `bfdev_log_level`, log.c:61-86, with `log_get_level`, log.c:52-59: the level found so far, the rest of the format. A NUL is not in the list, so that a pair needs two elements. -/
def levelLoop : Nat → Bytes → Nat × Bytes
  | level, a :: b :: rest =>
    if a = 1 then levelLoop (if 48 ≤ b ∧ b ≤ 57 then (b - 48).toNat else level) rest else (level, a :: b :: rest)
  | level, rest => (level, rest)
def logLevel (str : Bytes) : Nat × Bytes := levelLoop 8 str

/-- `level_name`, level.c:6-17. -/
def levelName : List String := ["emerg", "alert", "crit", "error", "warning", "notice", "info", "debug", "default"]

/-- `level_color`, color.c:19-30. -/
def levelColor : List Nat := [91, 31, 35, 33, 34, 96, 92, 90, 39]

/-- `struct bfdev_log_message`, log.h:50-54, with the buffer behind it. -/
structure Msg where
  level : Nat
  buff : Bytes
  length : Nat

/-- `log_vscnprintf`, log.c:22-34: the text is stored at the end with a terminator, as far as there is room. -/
def append (m : Msg) (text : Bytes) : Option Msg :=
  let size := 512 - m.length
  if m.length + (stored size text).length + 1 ≤ m.buff.length ∧ 0 < size then
    some { m with
      buff := m.buff.take m.length ++ stored size text ++ [0] ++ m.buff.drop (m.length + (stored size text).length + 1)
      length := m.length + (vscnprintf (BitVec.ofNat 64 size) (BitVec.ofNat 32 text.length)).toNat }
  else none

/-- `log_level`, level.c:19-26. -/
def putLevel (log : Logger) (m : Msg) : Option Msg :=
  if !log.level then some m else (levelName[m.level]?).bind fun n => append m (lit "[" ++ lit n ++ lit "] ")

/-- `log_color_prefix`, color.c:32-39. -/
def putColor (log : Logger) (m : Msg) : Option Msg :=
  if !log.color then some m else (levelColor[m.level]?).bind fun c => append m ([27] ++ lit "[" ++ lit (toString c) ++ lit "m")

/-- `log_color_suffix`, color.c:41-48. -/
def putReset (log : Logger) (m : Msg) : Option Msg := if !log.color then some m else append m ([27] ++ lit "[0m")

/-- `log_emit`, log.c:105-144, up to the call of the writer: `none` inside if the message is dropped. `garbage` is what the buffer on the stack contained. -/
def emit (garbage : Bytes) (log : Option Logger) (level : Nat) (text : Bytes) : Option (Option Msg) :=
  let log := log.getD defaultLogger
  let level := if level ≥ 8 then log.defaultLevel else level
  if level > log.recordLevel then some none
  else (putLevel log ⟨level, garbage, 0⟩).bind fun m => (putColor log m).bind fun m => (append m text).bind fun m => (putReset log m).map some

/-- `bfdev_vlog_core`, log.c:146-154: the result. `render` is the formatting with the arguments of the call, `write` the writer: level, buffer, length. -/
def core (garbage : Bytes) (log : Option Logger) (fmt : Bytes) (render : Bytes → Bytes) (write : Nat → Bytes → Nat → Int) : Option Int :=
  let l := logLevel fmt
  (emit garbage log l.1 (render l.2)).map fun r => match r with
    | none => 0
    | some m => write m.level m.buff m.length

end Bfdev.Log
