/-!
Model of the character classes of `include/bfdev/ctype.h` and of the table of `src/libc/ctype.c`. A character is passed as an `int`. Every function exists for values
known at compile time (`*_const`) and for others (`*_dynamic`, by the table).
-/
namespace Bfdev.Ctype

/-- The flags, ctype.h:14-36, each a bit of its own. -/
inductive Flag where
  | upper | lower | cntrl | punct | blank | digit | hexdg | space | hdspa | ascii
  deriving DecidableEq

/-- `bfdev_ctype_table`, ctype.c:11-257, equal neighbours put together. -/
def table : List (List Flag) :=
  List.replicate 9 [.ascii, .cntrl] ++
  List.replicate 2 [.ascii, .cntrl, .space] ++
  List.replicate 1 [.ascii, .cntrl, .space, .blank] ++
  List.replicate 2 [.ascii, .cntrl, .space] ++
  List.replicate 18 [.ascii, .cntrl] ++
  List.replicate 1 [.ascii, .space, .hdspa, .blank] ++
  List.replicate 15 [.ascii, .punct] ++
  List.replicate 1 [.ascii, .digit] ++
  List.replicate 9 [.ascii, .digit, .hexdg] ++
  List.replicate 7 [.ascii, .punct] ++
  List.replicate 6 [.ascii, .upper, .hexdg] ++
  List.replicate 20 [.ascii, .upper] ++
  List.replicate 6 [.ascii, .punct] ++
  List.replicate 6 [.ascii, .lower, .hexdg] ++
  List.replicate 20 [.ascii, .lower] ++
  List.replicate 4 [.ascii, .punct] ++
  List.replicate 1 [.ascii, .cntrl] ++
  List.replicate 32 [] ++
  List.replicate 1 [.space, .hdspa] ++
  List.replicate 31 [.punct] ++
  List.replicate 23 [.upper] ++
  List.replicate 1 [.punct] ++
  List.replicate 7 [.upper] ++
  List.replicate 24 [.lower] ++
  List.replicate 1 [.punct] ++
  List.replicate 8 [.lower]

/-- `(unsigned char)c`. -/
def uchar (c : Int) : Nat := (c % 256).toNat

/-- `BFDEV_CTYPE_DYNAMIC`, ctype.h:119-125, and the masks ctype.h:127-145. -/
def dynamic (flags : List Flag) (c : Int) : Bool := (table.getD (uchar c) []).any fun f => flags.contains f

/-- `BFDEV_CTYPE_DYNAMIC` at ctype.h:147. -/
def isupperDynamic : Int → Bool := dynamic [.upper]
/-- `BFDEV_CTYPE_DYNAMIC` at ctype.h:148. -/
def islowerDynamic : Int → Bool := dynamic [.lower]
/-- `BFDEV_CTYPE_DYNAMIC` at ctype.h:149. -/
def iscntrlDynamic : Int → Bool := dynamic [.cntrl]
/-- `BFDEV_CTYPE_DYNAMIC` at ctype.h:150. -/
def ispunctDynamic : Int → Bool := dynamic [.punct]
/-- `BFDEV_CTYPE_DYNAMIC` at ctype.h:151. -/
def isblankDynamic : Int → Bool := dynamic [.blank]
/-- `BFDEV_CTYPE_DYNAMIC` at ctype.h:152. -/
def isdigitDynamic : Int → Bool := dynamic [.digit]
/-- `BFDEV_CTYPE_DYNAMIC` at ctype.h:153. -/
def isxdigitDynamic : Int → Bool := dynamic [.hexdg]
/-- `BFDEV_CTYPE_DYNAMIC` at ctype.h:154. -/
def isspaceDynamic : Int → Bool := dynamic [.space]
/-- `BFDEV_CTYPE_DYNAMIC` at ctype.h:155. -/
def isasciiDynamic : Int → Bool := dynamic [.ascii]
/-- `BFDEV_CTYPE_DYNAMIC` at ctype.h:156. -/
def isalphaDynamic : Int → Bool := dynamic [.upper, .lower]
/-- `BFDEV_CTYPE_DYNAMIC` at ctype.h:157. -/
def isalnumDynamic : Int → Bool := dynamic [.upper, .lower, .digit]
/-- `BFDEV_CTYPE_DYNAMIC` at ctype.h:158. -/
def isgraphDynamic : Int → Bool := dynamic [.punct, .upper, .lower, .digit]
/-- `BFDEV_CTYPE_DYNAMIC` at ctype.h:159. -/
def isprintDynamic : Int → Bool := dynamic [.punct, .upper, .lower, .digit, .hdspa]

/-- `bfdev_isalpha_const`, ctype.h:41-45. The differences are of type `int`, here and below: they may be negative. -/
def isalphaConst (c : Int) : Bool := ((uchar c ||| 32 : Nat) : Int) - 97 < 26
/-- `bfdev_isdigit_const`, ctype.h:47-51. -/
def isdigitConst (c : Int) : Bool := (uchar c : Int) - 48 < 10
/-- `bfdev_isblank_const`, ctype.h:53-57. -/
def isblankConst (c : Int) : Bool := c = 32 ∨ c = 9
/-- `bfdev_iscntrl_const`, ctype.h:59-63. -/
def iscntrlConst (c : Int) : Bool := uchar c < 0x20 ∨ c = 0x7f
/-- `bfdev_isgraph_const`, ctype.h:65-69. -/
def isgraphConst (c : Int) : Bool := (uchar c : Int) - 0x21 < 0x5e
/-- `bfdev_islower_const`, ctype.h:71-75. -/
def islowerConst (c : Int) : Bool := (uchar c : Int) - 97 < 26
/-- `bfdev_isprint_const`, ctype.h:77-81. -/
def isprintConst (c : Int) : Bool := (uchar c : Int) - 0x20 < 0x5f
/-- `bfdev_isspace_const`, ctype.h:83-87. -/
def isspaceConst (c : Int) : Bool := c = 32 ∨ (uchar c : Int) - 9 < 5
/-- `bfdev_isupper_const`, ctype.h:89-93. -/
def isupperConst (c : Int) : Bool := (uchar c : Int) - 65 < 26
/-- `bfdev_isalnum_const`, ctype.h:95-99. -/
def isalnumConst (c : Int) : Bool := isalphaConst c || isdigitConst c
/-- `bfdev_ispunct_const`, ctype.h:101-105. -/
def ispunctConst (c : Int) : Bool := isgraphConst c && !isalnumConst c
/-- `bfdev_isxdigit_const`, ctype.h:107-111. -/
def isxdigitConst (c : Int) : Bool := isdigitConst c || ((uchar c ||| 32 : Nat) : Int) - 97 < 6
/-- `bfdev_ascii_const`, ctype.h:113-117. (`bfdev_isascii` calls it by another name, so that it does not compile.) -/
def asciiConst (c : Int) : Bool := uchar c ≤ 0x7f

/-- `bfdev_toascii`, ctype.h:252-256. -/
def toascii (c : Int) : Nat := uchar c &&& 0x7f
/-- `bfdev_tolower`, ctype.h:258-264; `isupper` is the function of the C library. -/
def tolower (isupper : Int → Bool) (c : Int) : Nat := if isupper c then uchar c ||| 32 else uchar c
/-- `bfdev_toupper`, ctype.h:266-272; `islower` is the function of the C library. -/
def toupper (islower : Int → Bool) (c : Int) : Nat := if islower c then uchar c &&& 0x5f else uchar c

end Bfdev.Ctype
