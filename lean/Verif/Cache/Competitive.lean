import Verif.Cache.Recent
/-!
C135: how often a least-recently-used cache misses, compared with any other way to choose what to keep, even one that knows the future.
-/
namespace Bfdev.Cache

/-! ### Specification -/

/-- A way to serve a history, newest first, with room for `room` tags: `keep p` is what is kept after the part `p` of it. What was asked for is
kept, and nothing else is fetched. As `keep` is chosen for the whole history, it may know the future. -/
structure Serves (room : Nat) (keep : List Nat → List Nat) (past : List Nat) : Prop where
  empty : keep [] = []
  step : ∀ t p, (t :: p) <:+ past → (keep (t :: p)).Nodup ∧ (keep (t :: p)).length ≤ room ∧ t ∈ keep (t :: p) ∧ ∀ x ∈ keep (t :: p), x = t ∨ x ∈ keep p

/-- How often it had to fetch what was asked for. -/
def fetched (keep : List Nat → List Nat) : List Nat → Nat
  | [] => 0
  | t :: past => fetched keep past + if t ∈ keep past then 0 else 1

/-! ### The potential -/

/-- The tags of a cache, newest first, that the other one does not keep: the newest counts `w`, and each older one less by one. -/
def phi (O : List Nat) : Nat → List Nat → Nat
  | _, [] => 0
  | w, x :: l => (if x ∈ O then 0 else w) + phi O (w - 1) l

theorem phi_mono (O : List Nat) : ∀ (l : List Nat) {v w : Nat}, v ≤ w → phi O v l ≤ phi O w l
  | [], _, _, _ => Nat.le_refl _
  | x :: l, v, w, h => by
    have := phi_mono O l (show v - 1 ≤ w - 1 by omega)
    unfold phi
    split <;> omega

theorem phi_drop (O : List Nat) : ∀ (l : List Nat) (w : Nat), phi O w l.dropLast ≤ phi O w l
  | [], _ => Nat.le_refl _
  | [x], _ => Nat.zero_le _
  | x :: y :: l, w => by
    have := phi_drop O (y :: l) (w - 1)
    rw [List.dropLast_cons_cons, phi, phi]
    omega

theorem phi_full (O : List Nat) : ∀ (l : List Nat) (w : Nat), l.length ≤ w → phi O (w - 1) l + (l.filter (· ∉ O)).length ≤ phi O w l
  | [], _, _ => Nat.le_refl _
  | x :: l, w, h => by
    rw [List.length_cons] at h
    have := phi_full O l (w - 1) (by omega)
    rw [phi, phi, List.filter_cons]
    by_cases hx : x ∈ O
    · simp only [hx, if_true, not_true_eq_false, decide_false, Bool.false_eq_true, if_false]; omega
    · simp only [hx, if_false, not_false_eq_true, decide_true, if_true, List.length_cons]; omega

theorem phi_hit {O : List Nat} {t : Nat} (ht : t ∈ O) : ∀ (l : List Nat) (w : Nat), l.Nodup → t ∈ l → phi O (w - 1) (l.filter (· ≠ t)) ≤ phi O w l
  | [], _, _, h => by cases h
  | x :: l, w, hn, h => by
    obtain ⟨n1, n2⟩ := List.nodup_cons.1 hn
    by_cases e : x = t
    · subst e
      rw [List.filter_cons_of_neg (by simp), filter_id n1, phi, if_pos ht]
      omega
    · have := phi_hit ht l (w - 1) n2 ((List.mem_cons.1 h).resolve_left fun e' => e e'.symm)
      rw [List.filter_cons_of_pos (by simpa using e), phi, phi]
      split <;> omega

theorem phi_change (O O' : List Nat) : ∀ (l : List Nat) (w k : Nat), w ≤ k → phi O' w l ≤ phi O w l + k * (l.filter fun x => x ∈ O ∧ x ∉ O').length
  | [], _, _, _ => Nat.zero_le _
  | x :: l, w, k, h => by
    have ih := phi_change O O' l (w - 1) k (by omega)
    rw [phi, phi, List.filter_cons]
    by_cases h1 : x ∈ O <;> by_cases h2 : x ∈ O' <;> simp only [h1, h2, if_true, if_false, true_and, false_and, not_true_eq_false, not_false_eq_true,
      decide_true, decide_false, Bool.false_eq_true, List.length_cons, Nat.mul_add, Nat.mul_one] <;> omega

theorem nodup_le : ∀ {l m : List Nat}, l.Nodup → (∀ x ∈ l, x ∈ m) → l.length ≤ m.length
  | [], _, _, _ => Nat.zero_le _
  | x :: l, m, hn, hs => by
    obtain ⟨n1, n2⟩ := List.nodup_cons.1 hn
    have hx := hs x List.mem_cons_self
    have := nodup_le (m := m.erase x) n2 fun y hy => (List.mem_erase_of_ne fun e => n1 (by rw [← e]; exact hy)).2 (hs y (List.mem_cons_of_mem _ hy))
    have h0 := List.length_pos_of_mem hx
    rw [List.length_erase_of_mem hx] at this
    rw [List.length_cons]
    omega

theorem filter_split (O : List Nat) : ∀ l : List Nat, (l.filter (· ∈ O)).length + (l.filter (· ∉ O)).length = l.length
  | [] => rfl
  | x :: l => by
    have := filter_split O l
    rw [List.filter_cons, List.filter_cons]
    by_cases h : x ∈ O <;> simp only [h, decide_true, decide_false, if_true, if_false, not_true_eq_false, not_false_eq_true, Bool.false_eq_true, List.length_cons] <;> omega

/-- The other one moves. -/
theorem phi_other {O O' L : List Nat} {t k : Nat} (hL : L.Nodup) (hO : O.Nodup) (hO' : O'.Nodup) (hs : ∀ x ∈ O', x = t ∨ x ∈ O) :
    k * O'.length + phi O' k L ≤ k * O.length + phi O k L + k * (if t ∈ O then 0 else 1) := by
  have h1 := phi_change O O' L k k (Nat.le_refl _)
  have h2 : (L.filter fun x => x ∈ O ∧ x ∉ O').length ≤ (O.filter (· ∉ O')).length := nodup_le (hL.filter _) fun x hx => by
    have := (List.mem_filter.1 hx).2
    simp only [decide_eq_true_eq] at this
    exact List.mem_filter.2 ⟨this.1, by simpa using this.2⟩
  have h3 : (O' ++ O.filter (· ∉ O')).Nodup := by
    refine List.nodup_append.2 ⟨hO', hO.filter _, fun a ha b hb e => ?_⟩
    have := (List.mem_filter.1 hb).2
    simp only [decide_eq_true_eq] at this
    exact this (e ▸ ha)
  have h4 : O'.length + (O.filter (· ∉ O')).length ≤ O.length + if t ∈ O then 0 else 1 := by
    rw [← List.length_append]
    split
    · rename_i ht
      refine nodup_le h3 fun x hx => ?_
      rcases List.mem_append.1 hx with hx | hx
      · rcases hs x hx with rfl | h
        · exact ht
        · exact h
      · exact (List.mem_filter.1 hx).1
    · rw [← List.length_cons (a := t)]
      refine nodup_le h3 fun x hx => ?_
      rcases List.mem_append.1 hx with hx | hx
      · rcases hs x hx with rfl | h
        · exact List.mem_cons_self
        · exact List.mem_cons_of_mem _ h
      · exact List.mem_cons_of_mem _ (List.mem_filter.1 hx).1
  have h5 := Nat.mul_le_mul_left k h2
  have h6 := Nat.mul_le_mul_left k h4
  rw [Nat.mul_add, Nat.mul_add] at h6
  omega

/-- The tags kept change with one use: a hit, a miss with room and a miss without. -/
theorem take_step {t S : Nat} {R : List Nat} (hS : 1 ≤ S) (hn : R.Nodup) :
    (t ∈ R.take S ∧ (t :: R.filter (· ≠ t)).take S = t :: (R.take S).filter (· ≠ t)) ∨
    (t ∉ R.take S ∧ (R.take S).length < S ∧ (t :: R.filter (· ≠ t)).take S = t :: R.take S) ∨
    (t ∉ R.take S ∧ (R.take S).length = S ∧ (t :: R.filter (· ≠ t)).take S = t :: (R.take S).dropLast) := by
  by_cases h : t ∈ R.take S
  · exact Or.inl ⟨h, take_hit hn h⟩
  · by_cases hl : (R.take S).length < S
    · exact Or.inr (Or.inl ⟨h, hl, take_free hl h⟩)
    · have : (R.take S).length = S := by rw [List.length_take] at hl ⊢; omega
      exact Or.inr (Or.inr ⟨h, this, take_full hS this h⟩)

theorem competitive_inv {size room : Nat} (hr : 1 ≤ room) (hle : room ≤ size) {keep : List Nat → List Nat} : ∀ past, Serves room keep past →
    (size - room + 1) * missed size past + size * (keep past).length + phi (keep past) size ((recent past).take size) ≤
      size * fetched keep past + (size - room + 1) * ((recent past).take size).length ∧ (keep past).Nodup
  | [], h => by
    rw [h.empty]
    refine ⟨?_, List.nodup_nil⟩
    simp [missed, recent, phi]
  | t :: past, h => by
    obtain ⟨ih, hO⟩ := competitive_inv hr hle past ⟨h.empty, fun s p hp => h.step s p (hp.trans (List.suffix_cons t past))⟩
    obtain ⟨hO', hroom, ht, hs⟩ := h.step t past List.suffix_rfl
    refine ⟨?_, hO'⟩
    have hn := recent_nodup past
    have hnL : ((recent past).take size).Nodup := hn.sublist (List.take_sublist _ _)
    have hA := phi_other (k := size) hnL hO hO' hs
    rw [fetched, Nat.mul_add size (fetched keep past), missed, recent]
    generalize keep (t :: past) = O' at *
    generalize keep past = O at *
    rcases take_step (t := t) (show 1 ≤ size by omega) hn with ⟨h1, h2⟩ | ⟨h1, h2, h3⟩ | ⟨h1, h2, h3⟩
    · have hB := phi_hit ht _ size hnL h1
      rw [h2, if_pos h1, phi, if_pos ht, List.length_cons, Nat.add_zero (missed size past)]
      have hlen : ((recent past).take size).length ≤ (((recent past).take size).filter (· ≠ t)).length + 1 := by
        rw [← List.length_cons (a := t)]
        refine nodup_le hnL fun x hx => ?_
        by_cases e : x = t
        · rw [e]; exact List.mem_cons_self
        · exact List.mem_cons_of_mem _ (List.mem_filter.2 ⟨hx, by simpa using e⟩)
      have := Nat.mul_le_mul_left (size - room + 1) hlen
      omega
    · have hB := phi_mono O' ((recent past).take size) (show size - 1 ≤ size by omega)
      rw [h3, if_neg h1, phi, if_pos ht, List.length_cons, Nat.mul_add (size - room + 1), Nat.mul_add (size - room + 1)]
      omega
    · have hB := phi_full O' ((recent past).take size) size (by omega)
      have hC := phi_drop O' ((recent past).take size) (size - 1)
      have hD : size - room + 1 ≤ (((recent past).take size).filter (· ∉ O')).length := by
        have e1 : (t :: ((recent past).take size).filter (· ∈ O')).length ≤ O'.length := by
          refine nodup_le (List.nodup_cons.2 ⟨fun hh => h1 (List.mem_filter.1 hh).1, hnL.filter _⟩) fun x hx => ?_
          rcases List.mem_cons.1 hx with rfl | hx
          · exact ht
          · simpa using (List.mem_filter.1 hx).2
        have e2 := filter_split O' ((recent past).take size)
        rw [List.length_cons] at e1
        omega
      have e4 : (t :: ((recent past).take size).dropLast).length = ((recent past).take size).length := by
        rw [List.length_cons, List.length_dropLast]; omega
      rw [h3, if_neg h1, phi, if_pos ht, e4, Nat.mul_add (size - room + 1)]
      omega

/-- **C135.** Whatever another cache with room for `room` entries, no more than the capacity, keeps, even if it knows the history in advance: a
least-recently-used cache of capacity `k` counts at most `(k · n + k · (k - room)) / (k - room + 1)` misses where the other fetches `n`
times. -/
theorem lru_competitive {ops : Ops} {data : Nat → Nat} (hd : ∀ t, Names ops (data t) t) {size : BitVec 64} {maxpend : Nat} (hm : 1 ≤ maxpend)
    {c : Cache (List Nat)} (hc : create [] size maxpend = some (some c)) {past : List Nat} (hk : 3 * past.length < 2 ^ 64) {room : Nat} (hr : 1 ≤ room)
    (hle : room ≤ c.size) {keep : List Nat → List Nat} (hs : Serves room keep past) :
    ∃ c', uses ops data c past = some c' ∧ (c.size - room + 1) * c'.misses ≤ c.size * fetched keep past + c.size * (c.size - room) := by
  obtain ⟨c', e, h⟩ := lru_misses hd hm hc past hk
  refine ⟨c', e, ?_⟩
  rw [h]
  obtain ⟨h1, -⟩ := competitive_inv hr hle past hs
  cases past with
  | nil => simp [missed]
  | cons t past =>
    have h2 : 1 ≤ (keep (t :: past)).length := List.length_pos_of_mem (hs.step t past List.suffix_rfl).2.2.1
    have h3 := Nat.mul_le_mul_left c.size h2
    have h4 : ((recent (t :: past)).take c.size).length ≤ c.size := List.length_take_le _ _
    have h5 := Nat.mul_le_mul_left (c.size - room + 1) h4
    rw [Nat.add_mul (c.size - room) 1 c.size, Nat.one_mul, Nat.mul_comm (c.size - room) c.size] at h5
    omega

/-- **C135.** Compared with a cache of the same capacity: at most `capacity` misses for each fetch. -/
theorem lru_competitive_same {ops : Ops} {data : Nat → Nat} (hd : ∀ t, Names ops (data t) t) {size : BitVec 64} {maxpend : Nat} (hm : 1 ≤ maxpend)
    {c : Cache (List Nat)} (hc : create [] size maxpend = some (some c)) {past : List Nat} (hk : 3 * past.length < 2 ^ 64)
    {keep : List Nat → List Nat} (hs : Serves c.size keep past) :
    ∃ c', uses ops data c past = some c' ∧ c'.misses ≤ c.size * fetched keep past := by
  have hsz : 1 ≤ c.size := by
    obtain ⟨b, -, -, e⟩ := (create_inv (H := LruHolds) (ops := ops) lru_start hc).1.size
    rw [e]; exact Nat.two_pow_pos b
  obtain ⟨c', e, h⟩ := lru_competitive hd hm hc hk hsz (Nat.le_refl _) hs
  refine ⟨c', e, ?_⟩
  rw [Nat.sub_self] at h
  omega

/-- Not vacuous: serving 1, 2, 3, 1, 2, 3 with room for two, keeping 1 as long as it is needed, takes four fetches; the cache of two entries
misses all six times. -/
def demoKeep : List Nat → List Nat
  | [] => []
  | [1] => [1]
  | [2, 1] => [2, 1]
  | [3, 2, 1] => [3, 1]
  | [1, 3, 2, 1] => [3, 1]
  | [2, 1, 3, 2, 1] => [3, 2]
  | [3, 2, 1, 3, 2, 1] => [3, 2]
  | _ => []

example : Serves 2 demoKeep [3, 2, 1, 3, 2, 1] := by
  refine ⟨rfl, fun t p h => ?_⟩
  simp only [List.suffix_cons_iff, List.suffix_nil, List.cons.injEq, reduceCtorEq, or_false] at h
  rcases h with ⟨rfl, rfl⟩ | ⟨rfl, rfl⟩ | ⟨rfl, rfl⟩ | ⟨rfl, rfl⟩ | ⟨rfl, rfl⟩ | ⟨rfl, rfl⟩ <;> decide

example : fetched demoKeep [3, 2, 1, 3, 2, 1] = 4 ∧ missed 2 [3, 2, 1, 3, 2, 1] = 6 := by decide

end Bfdev.Cache
