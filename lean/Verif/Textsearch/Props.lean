import Verif.Textsearch.Kmp
import Verif.Textsearch.Sunday
import Verif.Textsearch.Bm
/-!
C53 (`Kmp`) and C54 (`Sunday`, `Bm`): text search.
-/
