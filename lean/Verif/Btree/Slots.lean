import Verif.Btree.Model
/-! Blocks whose filled slots come first: what the loops over the slots do to them. -/
namespace Bfdev.Btree

/-- A block with these entries, the rest cleared. -/
def mk (K : Nat) (es : List (Nat × Nat)) : Blk := es ++ List.replicate (K - es.length) (0, 0)

theorem at_mid {α : Type} (a : List α) (x : α) (b : List α) {i : Nat} (h : i = a.length) : (a ++ x :: b)[i]? = some x := by
  subst h; simp

theorem set_mid {α : Type} (a : List α) (x y : α) (b : List α) {i : Nat} (h : i = a.length) : (a ++ x :: b).set i y = a ++ y :: b := by
  subst h; simp

theorem store_mid (a b : Blk) (x y : Nat × Nat) {i : Nat} (h : i = a.length) : store (a ++ x :: b) i y = some (a ++ y :: b) := by
  unfold store
  rw [if_pos (by simp; omega), set_mid a x y b h]

theorem mk_length {K : Nat} {es : List (Nat × Nat)} (h : es.length ≤ K) : (mk K es).length = K := by
  simp [mk]; omega

theorem mk_nil (K : Nat) : mk K [] = List.replicate K (0, 0) := rfl

theorem findIndex_append (k : Nat) : ∀ (a b : Blk), (∀ x ∈ a, k < x.1) → findIndex k (a ++ b) = a.length + findIndex k b
  | [], b, _ => by simp
  | e :: a, b, h => by
    have := h e (by simp)
    rw [List.cons_append, findIndex, if_neg (by omega), findIndex_append k a b fun x hx => h x (List.mem_cons_of_mem _ hx)]
    simp only [List.length_cons]; omega

theorem findIndex_all {k : Nat} {a : Blk} (h : ∀ x ∈ a, k < x.1) : findIndex k a = a.length := by
  have := findIndex_append k a [] h
  simpa [findIndex] using this

theorem findIndex_mid {k : Nat} {a b : Blk} {e : Nat × Nat} (h : ∀ x ∈ a, k < x.1) (he : e.1 ≤ k) : findIndex k (a ++ e :: b) = a.length := by
  rw [findIndex_append k a _ h, findIndex, if_pos he]; omega

/-- A list of entries falls into those above a key and the rest. -/
theorem exists_split (k : Nat) : ∀ es : List (Nat × Nat), ∃ a b, es = a ++ b ∧ (∀ x ∈ a, k < x.1) ∧ (∀ e, b.head? = some e → e.1 ≤ k)
  | [] => ⟨[], [], rfl, by simp, by simp⟩
  | e :: es => by
    by_cases h : e.1 ≤ k
    · exact ⟨[], e :: es, rfl, by simp, fun x hx => by simp at hx; subst hx; exact h⟩
    · obtain ⟨a, b, h1, h2, h3⟩ := exists_split k es
      refine ⟨e :: a, b, by rw [h1]; rfl, ?_, h3⟩
      intro x hx
      rcases List.mem_cons.mp hx with rfl | hx
      · omega
      · exact h2 x hx

theorem findIndex_split {k : Nat} {a b : Blk} (h : ∀ x ∈ a, k < x.1) (hb : ∀ e, b.head? = some e → e.1 ≤ k) :
    findIndex k (a ++ b) = a.length := by
  cases b with
  | nil => rw [List.append_nil]; exact findIndex_all h
  | cons e b => exact findIndex_mid h (hb e rfl)

theorem findIndex_mk (K k : Nat) {a b : List (Nat × Nat)} (h : ∀ x ∈ a, k < x.1) (hb : ∀ e, b.head? = some e → e.1 ≤ k) :
    findIndex k (mk K (a ++ b)) = a.length := by
  unfold mk
  rw [List.append_assoc]
  refine findIndex_split h fun e he => ?_
  cases b with
  | cons x b => exact hb e (by simpa using he)
  | nil =>
    rw [List.nil_append] at he
    have := List.eq_of_mem_replicate (List.mem_of_mem_head? he)
    rw [this]; exact Nat.zero_le _

theorem filled_replicate (n : Nat) : filled (List.replicate n (0, 0)) = 0 := by
  cases n <;> simp [filled, List.replicate_succ]

theorem filled_append : ∀ (a b : Blk), (∀ x ∈ a, x.2 ≠ 0) → filled (a ++ b) = a.length + filled b
  | [], b, _ => by simp
  | e :: a, b, h => by
    rw [List.cons_append, filled, if_neg (h e (by simp)), filled_append a b fun x hx => h x (List.mem_cons_of_mem _ hx)]
    simp only [List.length_cons]; omega

theorem fillIndex_mk {K i : Nat} {es : List (Nat × Nat)} (h : ∀ x ∈ es, x.2 ≠ 0) (hi : i ≤ es.length) : fillIndex (mk K es) i = es.length := by
  unfold fillIndex mk
  rw [List.drop_append_of_le_length hi, filled_append _ _ fun x hx => h x (List.mem_of_mem_drop hx), filled_replicate, List.length_drop]
  omega

theorem mk_at {K i : Nat} {a b : List (Nat × Nat)} {e : Nat × Nat} (h : i = a.length) : (mk K (a ++ e :: b))[i]? = some e := by
  unfold mk
  rw [List.append_assoc, List.cons_append]
  exact at_mid _ _ _ h

theorem keyAt_mk {K i : Nat} {a b : List (Nat × Nat)} {e : Nat × Nat} (h : i = a.length) : keyAt (mk K (a ++ e :: b)) i = some e.1 := by
  unfold keyAt
  rw [mk_at h, if_pos]
  · rfl
  · simp [mk]; omega

theorem valAt_mk {K i : Nat} {a b : List (Nat × Nat)} {e : Nat × Nat} (h : i = a.length) : valAt (mk K (a ++ e :: b)) i = some e.2 := by
  unfold valAt
  rw [mk_at h]; rfl

/-- The slot behind the last entry is clear. -/
theorem mk_end {K : Nat} {es : List (Nat × Nat)} (h : es.length < K) : (mk K es)[es.length]? = some (0, 0) := by
  unfold mk
  rw [show K - es.length = (K - es.length - 1) + 1 from by omega, List.replicate_succ]
  exact at_mid _ _ _ rfl

theorem valAt_end {K : Nat} {es : List (Nat × Nat)} (h : es.length < K) : valAt (mk K es) es.length = some 0 := by
  unfold valAt; rw [mk_end h]; rfl

theorem mk_set {K i : Nat} {a b : List (Nat × Nat)} {e f : Nat × Nat} (h : i = a.length) :
    (mk K (a ++ e :: b)).set i f = mk K (a ++ f :: b) := by
  unfold mk
  rw [List.append_assoc, List.cons_append, set_mid _ _ _ _ h]
  simp

theorem setKey_mk {K i k : Nat} {a b : List (Nat × Nat)} {e : Nat × Nat} (h : i = a.length) :
    setKey (mk K (a ++ e :: b)) i k = some (mk K (a ++ (k, e.2) :: b)) := by
  unfold setKey
  rw [mk_at h, Option.map_some, mk_set h]

theorem setVal_mk {K i v : Nat} {a b : List (Nat × Nat)} {e : Nat × Nat} (h : i = a.length) :
    setVal (mk K (a ++ e :: b)) i v = some (mk K (a ++ (e.1, v) :: b)) := by
  unfold setVal
  rw [mk_at h, Option.map_some, mk_set h]

theorem shiftUp_store (pre : Blk) (e : Nat × Nat) : ∀ (n : Nat) (mid : Blk) (z : Nat × Nat) (post : Blk), mid.length = n →
    ((shiftUp pre.length n (pre ++ mid ++ z :: post)).bind fun b => store b pre.length e) = some (pre ++ e :: mid ++ post)
  | 0, mid, z, post, h => by
    obtain rfl := List.length_eq_zero_iff.mp h
    rw [shiftUp, Option.bind_some, List.append_nil, store_mid pre post z e rfl]; simp
  | n + 1, mid, z, post, h => by
    obtain ⟨mid', m, rfl⟩ : ∃ mid' m, mid = mid' ++ [m] := by
      refine ⟨mid.dropLast, mid.getLast (by intro h0; simp [h0] at h), (List.dropLast_concat_getLast _).symm⟩
    have hl : mid'.length = n := by simpa using h
    have e1 : pre ++ (mid' ++ [m]) ++ z :: post = (pre ++ mid') ++ m :: (z :: post) := by simp
    have e2 : pre ++ (mid' ++ [m]) ++ z :: post = (pre ++ mid' ++ [m]) ++ z :: post := by simp
    rw [shiftUp, e1, at_mid _ _ _ (by simp [hl]), Option.bind_some, ← e1, e2, store_mid _ _ _ _ (by simp [hl]; omega), Option.bind_some]
    have e3 : pre ++ mid' ++ [m] ++ m :: post = pre ++ mid' ++ m :: (m :: post) := by simp
    rw [e3, shiftUp_store pre e n mid' m (m :: post) hl]
    simp

theorem insert_mk {K : Nat} {a b : List (Nat × Nat)} (e : Nat × Nat) (h : (a ++ b).length < K) :
    ((shiftUp a.length ((a ++ b).length - a.length) (mk K (a ++ b))).bind fun c => store c a.length e) = some (mk K (a ++ e :: b)) := by
  have e1 : mk K (a ++ b) = a ++ b ++ (0, 0) :: List.replicate (K - (a ++ b).length - 1) (0, 0) := by
    unfold mk
    rw [← List.replicate_succ, show K - (a ++ b).length - 1 + 1 = K - (a ++ b).length from by omega]
  rw [e1, shiftUp_store a e _ b _ _ (by simp)]
  congr 1
  unfold mk
  rw [List.append_assoc, List.append_assoc]
  congr 3
  simp; omega

theorem shiftDown_store : ∀ (n : Nat) (pre : Blk) (x : Nat × Nat) (mid post : Blk), mid.length = n →
    ((shiftDown n pre.length (pre ++ x :: mid ++ post)).bind fun b => store b (pre.length + n) (0, 0)) = some (pre ++ mid ++ (0, 0) :: post)
  | 0, pre, x, mid, post, h => by
    obtain rfl := List.length_eq_zero_iff.mp h
    rw [shiftDown, Option.bind_some, show pre ++ [x] ++ post = pre ++ x :: post from by simp, Nat.add_zero, store_mid pre post x _ rfl]; simp
  | n + 1, pre, x, mid, post, h => by
    cases mid with
    | nil => simp at h
    | cons m mid =>
      have e1 : pre ++ x :: (m :: mid) ++ post = (pre ++ [x]) ++ m :: (mid ++ post) := by simp
      have e2 : pre ++ x :: (m :: mid) ++ post = pre ++ x :: (m :: mid ++ post) := by simp
      rw [shiftDown, e1, at_mid _ _ _ (by simp), Option.bind_some, ← e1, e2, store_mid _ _ _ _ rfl, Option.bind_some]
      have := shiftDown_store n (pre ++ [m]) m mid post (by simpa using h)
      rw [show (pre ++ [m]).length = pre.length + 1 from by simp] at this
      rw [show pre ++ m :: (m :: mid ++ post) = pre ++ [m] ++ m :: mid ++ post from by simp,
        show pre.length + (n + 1) = pre.length + 1 + n from by omega, this]
      simp

theorem remove_mk {K : Nat} {a b : List (Nat × Nat)} {e : Nat × Nat} (h : (a ++ e :: b).length ≤ K) :
    ((shiftDown ((a ++ e :: b).length - 1 - a.length) a.length (mk K (a ++ e :: b))).bind fun c =>
      store c (a.length + ((a ++ e :: b).length - 1 - a.length)) (0, 0)) = some (mk K (a ++ b)) := by
  rw [show (a ++ e :: b).length - 1 - a.length = b.length from by simp]
  unfold mk
  rw [shiftDown_store _ a e b _ rfl, ← List.replicate_succ]
  congr 3
  simp at h ⊢; omega

theorem splitLoop_ok : ∀ (x2 y2 x1 y1 : Blk) (c H m : Nat), x1.length = c → y1.length = c → x2.length = y2.length → c + x2.length = H → x2.length ≤ m →
    splitLoop H x2.length c (x1 ++ List.replicate m (0, 0)) (y1 ++ x2 ++ List.replicate c (0, 0) ++ y2) =
      some (x1 ++ x2 ++ List.replicate (m - x2.length) (0, 0), y1 ++ y2 ++ List.replicate H (0, 0))
  | [], y2, x1, y1, c, H, m, h1, h2, h3, h4, h5 => by
    obtain rfl := List.length_eq_zero_iff.mp h3.symm
    simp at h4
    subst h4
    simp [splitLoop]
  | u :: x2, y2, x1, y1, c, H, m, h1, h2, h3, h4, h5 => by
    cases y2 with
    | nil => simp at h3
    | cons w y2 =>
      obtain ⟨m, rfl⟩ : ∃ m', m = m' + 1 := ⟨m - 1, by simp at h5; omega⟩
      simp only [List.length_cons] at h3 h4 h5 ⊢
      have e1 : y1 ++ (u :: x2) ++ List.replicate c (0, 0) ++ w :: y2 = y1 ++ u :: (x2 ++ List.replicate c (0, 0) ++ w :: y2) := by simp
      rw [splitLoop, e1, at_mid _ _ _ h2.symm, Option.bind_some, List.replicate_succ, store_mid _ _ _ _ h1.symm, Option.bind_some]
      have e2 : y1 ++ u :: (x2 ++ List.replicate c (0, 0) ++ w :: y2) = (y1 ++ u :: (x2 ++ List.replicate c (0, 0))) ++ w :: y2 := by simp
      rw [e2, at_mid _ _ _ (by simp; omega), Option.bind_some, ← e2, store_mid _ _ _ _ h2.symm, Option.bind_some]
      have e3 : y1 ++ w :: (x2 ++ List.replicate c (0, 0) ++ w :: y2) = (y1 ++ w :: (x2 ++ List.replicate c (0, 0))) ++ w :: y2 := by simp
      rw [e3, store_mid _ _ _ _ (by simp; omega), Option.bind_some]
      have ih := splitLoop_ok x2 y2 (x1 ++ [u]) (y1 ++ [w]) (c + 1) H m (by simp [h1]) (by simp [h2]) (by omega) (by omega) (by omega)
      have e4 : y1 ++ w :: (x2 ++ List.replicate c (0, 0)) ++ (0, 0) :: y2 = y1 ++ [w] ++ x2 ++ List.replicate (c + 1) (0, 0) ++ y2 := by
        rw [List.replicate_succ']; simp
      rw [e4, show x1 ++ u :: List.replicate m (0, 0) = x1 ++ [u] ++ List.replicate m (0, 0) from by simp, ih]
      simp

theorem split_mk {K H : Nat} {x y : List (Nat × Nat)} (hK : K = 2 * H) (hx : x.length = H) (hy : y.length = H) :
    split (x ++ y).length (List.replicate K (0, 0)) (mk K (x ++ y)) = some (mk K x, mk K y) := by
  have hl : (x ++ y).length = 2 * H := by simp; omega
  unfold split
  rw [hl, show 2 * H / 2 = H from by omega]
  have := splitLoop_ok x y [] [] 0 H K rfl rfl (by omega) (by omega) (by omega)
  rw [hx] at this
  have e : mk K (x ++ y) = [] ++ x ++ List.replicate 0 (0, 0) ++ y := by
    unfold mk; rw [hl, hK]; simp
  rw [e, show List.replicate K ((0 : Nat), (0 : Nat)) = [] ++ List.replicate K (0, 0) from rfl, this, Option.bind_some, if_neg (by omega)]
  unfold mk
  rw [hx, hy, hK, show 2 * H - H = H from by omega]
  simp

theorem mergeLoop_ok : ∀ (mid l1 pre post : Blk) (lfill m : Nat), l1.length = lfill + pre.length → mid.length ≤ m →
    mergeLoop lfill mid.length pre.length (l1 ++ List.replicate m (0, 0)) (pre ++ mid ++ post) =
      some (l1 ++ mid ++ List.replicate (m - mid.length) (0, 0))
  | [], l1, pre, post, lfill, m, h, hm => by simp [mergeLoop]
  | u :: mid, l1, pre, post, lfill, m, h, hm => by
    obtain ⟨m, rfl⟩ : ∃ m', m = m' + 1 := ⟨m - 1, by simp at hm; omega⟩
    simp only [List.length_cons] at hm ⊢
    have e1 : pre ++ (u :: mid) ++ post = pre ++ u :: (mid ++ post) := by simp
    rw [mergeLoop, e1, at_mid _ _ _ rfl, Option.bind_some, List.replicate_succ, store_mid _ _ _ _ h.symm, Option.bind_some]
    have ih := mergeLoop_ok mid (l1 ++ [u]) (pre ++ [u]) post lfill m (by simp; omega) (by omega)
    rw [show (pre ++ [u]).length = pre.length + 1 from by simp] at ih
    rw [show l1 ++ u :: List.replicate m (0, 0) = l1 ++ [u] ++ List.replicate m (0, 0) from by simp,
      show pre ++ u :: (mid ++ post) = pre ++ [u] ++ mid ++ post from by simp, ih]
    simp

theorem merge_mk {K : Nat} {l r : List (Nat × Nat)} (h : l.length + r.length ≤ K) :
    mergeLoop l.length r.length 0 (mk K l) (mk K r) = some (mk K (l ++ r)) := by
  have := mergeLoop_ok r l [] (List.replicate (K - r.length) (0, 0)) l.length (K - l.length) (by simp) (by omega)
  unfold mk
  rw [List.nil_append] at this
  rw [List.length_nil] at this
  rw [this, show K - l.length - r.length = K - (l ++ r).length from by simp; omega]

theorem mk_one {K k p : Nat} (h : 0 < K) : store (List.replicate K (0, 0)) 0 (k, p) = some (mk K [(k, p)]) := by
  obtain ⟨m, rfl⟩ : ∃ m, K = m + 1 := ⟨K - 1, by omega⟩
  rw [List.replicate_succ]
  exact store_mid [] _ _ _ rfl

end Bfdev.Btree
