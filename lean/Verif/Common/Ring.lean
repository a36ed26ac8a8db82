import Verif.Common.Mem
/-! Reading and writing a circular byte block in two pieces. -/
namespace Bfdev

/-- `n` consecutive cells of the circular block `d`, starting at cell `o`. -/
def ringGet {α} (d : List α) (o n : Nat) : List α := (d.drop o ++ d.take o).take n

theorem ringGet_length {α} (d : List α) (o n : Nat) (ho : o ≤ d.length) (hn : n ≤ d.length) :
    (ringGet d o n).length = n := by simp [ringGet]; omega

theorem ringGet_getElem? {α} (d : List α) (o n i : Nat) (ho : o ≤ d.length) (hn : n ≤ d.length) :
    (ringGet d o n)[i]? = if i < n then (if o + i < d.length then d[o + i]? else d[o + i - d.length]?) else none := by
  unfold ringGet
  rw [List.getElem?_take]
  split
  · rw [List.getElem?_append]
    simp only [List.length_drop, List.getElem?_drop]
    split
    · rw [if_pos (by omega)]
    · rw [if_neg (by omega), List.getElem?_take, if_pos (by omega)]
      congr 1; omega
  · rfl

/-- Reading in two pieces. -/
theorem ringGet_split {α} (d : List α) (o n : Nat) (ho : o ≤ d.length) (hn : n ≤ d.length) :
    (d.drop o).take (min n (d.length - o)) ++ (d.drop 0).take (n - min n (d.length - o)) = ringGet d o n := by
  apply List.ext_getElem?
  intro i
  rw [ringGet_getElem? d o n i ho hn, List.getElem?_append]
  have hl : ((d.drop o).take (min n (d.length - o))).length = min n (d.length - o) := by simp
  rw [hl]
  split
  · rw [List.getElem?_take, if_pos (by omega), List.getElem?_drop, if_pos (by omega)]
    rw [if_pos (by omega)]
  · rw [List.getElem?_take]
    split
    · rw [if_pos (by omega), if_neg (by omega), List.getElem?_drop]
      congr 1; omega
    · rw [if_neg (by omega)]

/-- Dropping from the front advances the start. -/
theorem ringGet_drop {α} (d : List α) (o n k o' : Nat) (ho : o < d.length) (hn : n ≤ d.length) (hk : k ≤ n)
    (ho' : o' = if o + k < d.length then o + k else o + k - d.length) :
    ringGet d o' (n - k) = (ringGet d o n).drop k := by
  apply List.ext_getElem?
  intro i
  have h1 : o' ≤ d.length := by subst ho'; split <;> omega
  rw [ringGet_getElem? d o' (n-k) i h1 (by omega), List.getElem?_drop, ringGet_getElem? d o n (k+i) (by omega) hn]
  by_cases hi : i < n - k
  · rw [if_pos hi, if_pos (show k + i < n by omega)]
    by_cases hc : o + k < d.length
    · rw [if_pos hc] at ho'
      subst ho'
      by_cases hd : o + k + i < d.length
      · rw [if_pos hd, if_pos (by omega)]; congr 1; omega
      · rw [if_neg hd, if_neg (by omega)]; congr 1; omega
    · rw [if_neg hc] at ho'
      subst ho'
      rw [if_pos (by omega), if_neg (by omega)]; congr 1; omega
  · rw [if_neg hi, if_neg (by omega)]

theorem ringGet_take {α} (d : List α) (o n k : Nat) (hk : k ≤ n) :
    ringGet d o k = (ringGet d o n).take k := by
  simp [ringGet, List.take_take, Nat.min_eq_left hk]

/-- The block after writing `src` circularly from cell `p` on in two pieces. -/
def ringPut {α} (d : List α) (p : Nat) (src : List α) : List α :=
  let l := min src.length (d.length - p)
  let d1 := d.take p ++ src.take l ++ d.drop (p + (src.take l).length)
  d1.take 0 ++ (src.drop l) ++ d1.drop (0 + (src.drop l).length)

theorem ringPut_length {α} (d : List α) (p : Nat) (src : List α) (hp : p ≤ d.length) (hs : src.length ≤ d.length) :
    (ringPut d p src).length = d.length := by
  unfold ringPut; simp; omega

theorem ringPut_getElem? {α} (d : List α) (p : Nat) (src : List α) (hp : p ≤ d.length) (hs : src.length ≤ d.length)
    (j : Nat) :
    (ringPut d p src)[j]? =
      if p ≤ j ∧ j < p + src.length ∧ j < d.length then src[j - p]?
      else if j + d.length < p + src.length then src[j + d.length - p]? else d[j]? := by
  unfold ringPut
  have hl : (src.take (min src.length (d.length - p))).length = min src.length (d.length - p) := by simp
  have h1 : p + (src.take (min src.length (d.length - p))).length ≤ d.length := by rw [hl]; omega
  rw [splice_getElem? _ 0 _ (by rw [splice_length _ _ _ h1]; simp; omega)]
  rw [splice_getElem? _ _ _ h1, hl]
  simp only [List.length_drop, Nat.zero_add, Nat.zero_le, true_and, Nat.sub_zero]
  by_cases ha : j < src.length - min src.length (d.length - p)
  · rw [if_pos ha, if_neg (by omega), if_pos (by omega), List.getElem?_drop]
    congr 1; omega
  · rw [if_neg ha]
    by_cases hb : p ≤ j ∧ j < p + min src.length (d.length - p)
    · rw [if_pos hb, if_pos (by omega), List.getElem?_take, if_pos (by omega)]
    · rw [if_neg hb, if_neg (by omega), if_neg (by omega)]

/-- Writing right behind `m` live cells appends. -/
theorem ringGet_put {α} (d : List α) (o m p : Nat) (src : List α) (ho : o < d.length) (hs : m + src.length ≤ d.length)
    (hp : p = if o + m < d.length then o + m else o + m - d.length) :
    ringGet (ringPut d p src) o (m + src.length) = ringGet d o m ++ src := by
  have hpl : p ≤ d.length := by subst hp; split <;> omega
  have hlen := ringPut_length d p src hpl (by omega)
  apply List.ext_getElem?
  intro i
  rw [ringGet_getElem? _ _ _ _ (by omega) (by omega), List.getElem?_append,
    ringGet_length d o m (by omega) (by omega), ringGet_getElem? d o m i (by omega) (by omega), hlen,
    ringPut_getElem? d p src hpl (by omega), ringPut_getElem? d p src hpl (by omega)]
  by_cases hi : i < m
  · rw [if_pos (by omega), if_pos hi, if_pos hi]
    split
    · rw [if_neg, if_neg]
      all_goals (subst hp; split <;> omega)
    · rw [if_neg, if_neg]
      all_goals (subst hp; split <;> omega)
  · rw [if_neg hi]
    by_cases hn : i < m + src.length
    · rw [if_pos hn]
      split
      · by_cases hc : o + m < d.length
        · rw [if_pos (by subst hp; rw [if_pos hc]; omega)]
          congr 1; subst hp; rw [if_pos hc]; omega
        · omega
      · by_cases hc : o + m < d.length
        · rw [if_neg (by subst hp; rw [if_pos hc]; omega), if_pos (by subst hp; rw [if_pos hc]; omega)]
          congr 1; subst hp; rw [if_pos hc]; omega
        · rw [if_pos (by subst hp; rw [if_neg hc]; omega)]
          congr 1; subst hp; rw [if_neg hc]; omega
    · rw [if_neg hn]; symm; apply List.getElem?_eq_none; omega

end Bfdev
