/-
Model of `include/bfdev/bsearch.h` and `src/bsearch.c`.
An element pointer is its index in the array. `none` stands for calling `find` on something that is not an element.
-/
namespace Bfdev.Bsearch

/-- The loop of `bfdev_bsearch_inline`, bsearch.h:22-35. `elems` is the array, `find` the callback with its `pdata`,
`base`/`num` the current window. The result is the index of the returned element, or null. -/
def loop {α : Type} (elems : List α) (find : α → Int) (base num : Nat) : Option (Option Nat) :=
  if h : num = 0 then some none
  else
    let pivot := base + num / 2
    match elems[pivot]? with
    | none => none
    | some e =>
      let result := find e
      if result = 0 then some (some pivot)
      else if result < 0 then loop elems find (pivot + 1) ((num - 1) / 2)
      else loop elems find base (num / 2)
termination_by num
decreasing_by all_goals omega

/-- `bfdev_bsearch`, src/bsearch.c:9-14, bsearch.h:15-38. -/
def bsearch {α : Type} (elems : List α) (find : α → Int) : Option (Option Nat) := loop elems find 0 elems.length

end Bfdev.Bsearch
