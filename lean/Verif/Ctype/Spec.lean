/-!
Specification: the classes of the ASCII characters in the C locale, by ranges of codes.
-/
namespace Bfdev.Ctype

inductive Class where
  | upper | lower | alpha | digit | alnum | xdigit | punct | graph | print | space | blank | cntrl | ascii

/-- The characters of a class. -/
def Class.has : Class → Nat → Bool
  | .upper, u => 0x41 ≤ u && u ≤ 0x5a
  | .lower, u => 0x61 ≤ u && u ≤ 0x7a
  | .alpha, u => Class.upper.has u || Class.lower.has u
  | .digit, u => 0x30 ≤ u && u ≤ 0x39
  | .alnum, u => Class.alpha.has u || Class.digit.has u
  | .xdigit, u => Class.digit.has u || (0x41 ≤ u && u ≤ 0x46) || (0x61 ≤ u && u ≤ 0x66)
  | .graph, u => 0x21 ≤ u && u ≤ 0x7e
  | .print, u => 0x20 ≤ u && u ≤ 0x7e
  | .punct, u => Class.graph.has u && !Class.alnum.has u
  | .space, u => u == 0x20 || (0x09 ≤ u && u ≤ 0x0d)
  | .blank, u => u == 0x20 || u == 0x09
  | .cntrl, u => u ≤ 0x1f || u == 0x7f
  | .ascii, u => u ≤ 0x7f
termination_by c => match c with | .punct => 3 | .alnum => 2 | .xdigit => 2 | .alpha => 1 | _ => 0

end Bfdev.Ctype
