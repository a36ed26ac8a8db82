import Verif.Heap.Props
/-!
C93: walking a heap in postorder, also while the nodes already visited are given back.
-/
namespace Bfdev.Heap.Post
open Heap

/-- `bfdev_heap_left_deep`, titer.h:35-48; `none` is a loop that does not end. -/
def leftDeep (s : State) : Nat → Addr → Option Addr
  | 0, _ => none
  | fuel + 1, node =>
    if node = 0 then some 0
    else if s.left node ≠ 0 then leftDeep s fuel (s.left node)
    else if s.right node ≠ 0 then leftDeep s fuel (s.right node)
    else some node

/-- `bfdev_heap_post_first`, titer.h:181-190. -/
def postFirst (s : State) (fuel : Nat) : Option Addr := if s.root = 0 then some 0 else leftDeep s fuel s.root

/-- `bfdev_heap_post_next`, titer.h:192-210. -/
def postNext (s : State) (fuel : Nat) (node : Addr) : Option Addr :=
  if node = 0 then some 0
  else
    let parent := s.parent node
    if parent ≠ 0 ∧ node = s.left parent ∧ s.right parent ≠ 0 then leftDeep s fuel (s.right parent) else some parent

/-- `bfdev_heap_post_for_each_safe`, heap.h:362-364, heap.h:386-389 and 338-339: the next node is fetched before the body runs, and the body may do what it likes with the
memory of the node it was given. The nodes visited. -/
def forEachSafe (body : State → Addr → State) (depth : Nat) : Nat → State → Addr → Option (List Addr)
  | 0, _, _ => none
  | fuel + 1, s, pos =>
    if pos = 0 then some []
    else (postNext s depth pos).bind fun tmp => (forEachSafe body depth fuel (body s pos) tmp).map (pos :: ·)

/-! ## Specification -/

/-- The body changes no node but the one it was given. -/
def Private (body : State → Addr → State) : Prop :=
  ∀ s pos x, x ≠ pos → (body s pos).left x = s.left x ∧ (body s pos).right x = s.right x ∧ (body s pos).parent x = s.parent x

/-- In the list, `x` comes before `y`. -/
def Before (l : List Addr) (x y : Addr) : Prop := ∃ a b c, l = a ++ x :: b ++ y :: c

/-! ## Proofs -/

/-- The nodes below node `k` of a heap of `n` nodes, without itself, in the order of the walk; `d` bounds their number. -/
def sub (n : Nat) : Nat → Nat → List Nat
  | 0, _ => []
  | d + 1, k =>
    (if 2 * k ≤ n then sub n d (2 * k) ++ [2 * k] else []) ++ if 2 * k + 1 ≤ n then sub n d (2 * k + 1) ++ [2 * k + 1] else []

/-- The number of the leftmost node below `k`. -/
def deep (n : Nat) : Nat → Nat → Nat
  | 0, k => k
  | d + 1, k => if 2 * k ≤ n then deep n d (2 * k) else k

/-- `y` is below `k`, or `k` itself. -/
def Under (k y : Nat) : Prop := ∃ i, y / 2 ^ i = k

theorem under_ge {k y : Nat} (h : Under k y) : k ≤ y := by
  obtain ⟨i, rfl⟩ := h
  exact Nat.div_le_self _ _

theorem under_left {k y : Nat} (h : Under (2 * k) y) : Under k y := by
  obtain ⟨i, h⟩ := h
  exact ⟨i + 1, by rw [Nat.pow_succ, ← Nat.div_div_eq_div_mul, h]; omega⟩

theorem under_right {k y : Nat} (h : Under (2 * k + 1) y) : Under k y := by
  obtain ⟨i, h⟩ := h
  exact ⟨i + 1, by rw [Nat.pow_succ, ← Nat.div_div_eq_div_mul, h]; omega⟩

theorem under_apart {k y : Nat} (hk : 1 ≤ k) (h1 : Under (2 * k) y) (h2 : Under (2 * k + 1) y) : False := by
  obtain ⟨i, h1⟩ := h1
  obtain ⟨j, h2⟩ := h2
  rcases Nat.lt_trichotomy i j with c | c | c
  · obtain ⟨m, rfl⟩ : ∃ m, j = i + (m + 1) := ⟨j - i - 1, by omega⟩
    rw [Nat.pow_add, ← Nat.div_div_eq_div_mul, h1] at h2
    have : 2 * k / 2 ^ (m + 1) ≤ 2 * k := Nat.div_le_self _ _
    omega
  · subst c; omega
  · obtain ⟨m, rfl⟩ : ∃ m, i = j + (m + 1) := ⟨i - j - 1, by omega⟩
    rw [Nat.pow_add, ← Nat.div_div_eq_div_mul, h2] at h1
    have : (2 * k + 1) / 2 ^ (m + 1) ≤ (2 * k + 1) / 2 := Nat.div_le_div_left (by rw [Nat.pow_succ]; have := Nat.pow_pos (n := m) (show 0 < 2 by omega); omega) (by omega)
    omega

theorem sub_under {n : Nat} : ∀ (d k : Nat) {y : Nat}, 1 ≤ k → y ∈ sub n d k → Under k y ∧ y ≤ n ∧ k < y
  | 0, _, _, _, h => by cases h
  | d + 1, k, y, hk, h => by
    unfold sub at h
    rw [List.mem_append] at h
    rcases h with h | h
    · split at h
      · rw [List.mem_append, List.mem_singleton] at h
        rcases h with h | rfl
        · obtain ⟨h1, h2, h3⟩ := sub_under d (2 * k) (by omega) h
          exact ⟨under_left h1, h2, by omega⟩
        · exact ⟨⟨1, by omega⟩, by assumption, by omega⟩
      · cases h
    · split at h
      · rw [List.mem_append, List.mem_singleton] at h
        rcases h with h | rfl
        · obtain ⟨h1, h2, h3⟩ := sub_under d (2 * k + 1) (by omega) h
          exact ⟨under_right h1, h2, by omega⟩
        · exact ⟨⟨1, by omega⟩, by assumption, by omega⟩
      · cases h

/-- Everything below `k` is there. -/
theorem mem_sub {n : Nat} : ∀ (d k : Nat) {y : Nat}, n < k + d → 1 ≤ k → y ≤ n → ∀ i, y / 2 ^ (i + 1) = k → y ∈ sub n d k
  | 0, k, y, hd, hk, hy, i, h => by
    have := Nat.div_le_self y (2 ^ (i + 1))
    omega
  | d + 1, k, y, hd, hk, hy, i, h => by
    have hle := Nat.div_le_self y (2 ^ i)
    have hsplit : y / 2 ^ i / 2 = k := by rw [Nat.div_div_eq_div_mul, ← Nat.pow_succ]; exact h
    unfold sub
    rw [List.mem_append]
    rcases Nat.mod_two_eq_zero_or_one (y / 2 ^ i) with c | c
    · left
      have e : y / 2 ^ i = 2 * k := by omega
      rw [if_pos (by omega), List.mem_append, List.mem_singleton]
      cases i with
      | zero => right; rw [Nat.pow_zero, Nat.div_one] at e; exact e
      | succ i => left; exact mem_sub d (2 * k) (by omega) (by omega) hy i e
    · right
      have e : y / 2 ^ i = 2 * k + 1 := by omega
      rw [if_pos (by omega), List.mem_append, List.mem_singleton]
      cases i with
      | zero => right; rw [Nat.pow_zero, Nat.div_one] at e; exact e
      | succ i => left; exact mem_sub d (2 * k + 1) (by omega) (by omega) hy i e

theorem sub_nodup {n : Nat} : ∀ (d k : Nat), 1 ≤ k → (sub n d k).Nodup
  | 0, _, _ => List.nodup_nil
  | d + 1, k, hk => by
    have part : ∀ m, 1 ≤ m → (if m ≤ n then sub n d m ++ [m] else []).Nodup ∧ ∀ y ∈ (if m ≤ n then sub n d m ++ [m] else []), Under m y := by
      intro m hm
      split
      · refine ⟨List.nodup_append.2 ⟨sub_nodup d m hm, by simp, fun a ha b hb => ?_⟩, fun y hy => ?_⟩
        · rw [List.mem_singleton] at hb
          have := (sub_under d m hm ha).2.2
          omega
        · rw [List.mem_append, List.mem_singleton] at hy
          rcases hy with hy | rfl
          · exact (sub_under d m hm hy).1
          · exact ⟨0, by simp⟩
      · exact ⟨List.nodup_nil, by simp⟩
    unfold sub
    rw [List.nodup_append]
    refine ⟨(part _ (by omega)).1, (part _ (by omega)).1, fun a ha b hb e => ?_⟩
    subst e
    exact under_apart hk ((part _ (by omega)).2 a ha) ((part _ (by omega)).2 a hb)

/-- The node fields outside `D` are those of the heap. -/
def Agree (s0 s : State) (g : Nat → Addr) (D : List Nat) : Prop := ∀ k, g k ≠ 0 → k ∉ D → s.left (g k) = s0.left (g k) ∧ s.right (g k) = s0.right (g k) ∧ s.parent (g k) = s0.parent (g k)

variable {s0 : State} {g : Nat → Addr}

theorem agree_body {s : State} {D : List Nat} {body : State → Addr → State} (h0 : Shape s0 g) (hb : Private body) (h : Agree s0 s g D) {k : Nat} : Agree s0 (body s (g k)) g (D ++ [k]) := by
  intro j hj hd
  rw [List.mem_append, List.mem_singleton] at hd
  have hne : g j ≠ g k := fun e => hd (Or.inr (h0.inj j k hj e))
  obtain ⟨h1, h2, h3⟩ := hb s (g k) (g j) hne
  rw [h1, h2, h3]
  exact h j hj (fun e => hd (Or.inl e))

theorem leftDeep_eq (h0 : Shape s0 g) {s : State} {D : List Nat} (ha : Agree s0 s g D) : ∀ (d k fuel : Nat), 1 ≤ k → k ≤ s0.count → s0.count < k + d → d < fuel →
    k ∉ D → (∀ y ∈ sub s0.count d k, y ∉ D) → leftDeep s fuel (g k) = some (g (deep s0.count d k))
  | 0, k, fuel, _, h2, h3, _, _, _ => by omega
  | d + 1, k, fuel + 1, h1, h2, h3, h4, hk, hs => by
    have hg : g k ≠ 0 := (h0.number k).2 ⟨h1, h2⟩
    obtain ⟨e1, e2, _⟩ := ha k hg hk
    rw [h0.left k hg] at e1
    rw [h0.right k hg] at e2
    unfold leftDeep deep
    rw [if_neg hg, e1, e2]
    by_cases c : 2 * k ≤ s0.count
    · have hl : g (2 * k) ≠ 0 := (h0.number _).2 ⟨by omega, c⟩
      rw [if_pos hl, if_pos c]
      have hm : ∀ y ∈ sub s0.count d (2 * k) ++ [2 * k], y ∉ D := fun y hy => hs y (by unfold sub; rw [if_pos c]; exact List.mem_append_left _ hy)
      exact leftDeep_eq h0 ha d (2 * k) fuel (by omega) c (by omega) (by omega) (hm _ (by simp)) (fun y hy => hm y (by simp [hy]))
    · have hl : g (2 * k) = 0 := Classical.byContradiction fun e => c ((h0.number _).1 e).2
      have hr : g (2 * k + 1) = 0 := Classical.byContradiction fun e => by have := ((h0.number _).1 e).2; omega
      rw [if_neg (by simp [hl]), if_neg (by simp [hr]), if_neg c]

theorem leftDeep_zero (s : State) (fuel : Nat) : leftDeep s (fuel + 1) 0 = some 0 := by
  unfold leftDeep; rw [if_pos rfl]

/-- The walk through everything below `k`, from its leftmost node to `k`. -/
theorem visit (h0 : Shape s0 g) {body : State → Addr → State} (hb : Private body) {depth : Nat} (hdep : s0.count + 1 < depth) :
    ∀ (d k : Nat), 1 ≤ k → k ≤ s0.count → s0.count < k + d → d ≤ s0.count → ∀ (s : State) (D : List Nat) (fuel : Nat), Agree s0 s g D → k ∉ D → (∀ y ∈ sub s0.count d k, y ∉ D) →
      ∃ s', Agree s0 s' g (D ++ sub s0.count d k) ∧
        forEachSafe body depth (fuel + (sub s0.count d k).length) s (g (deep s0.count d k)) = (forEachSafe body depth fuel s' (g k)).map ((sub s0.count d k).map g ++ ·)
  | 0, k, _, h2, h3, _ => by omega
  | d + 1, k, h1, h2, h3, h4 => by
    intro s D fuel ha hk hs
    have hg : g k ≠ 0 := (h0.number k).2 ⟨h1, h2⟩
    -- the step from a child of `k`
    have step : ∀ (m : Nat) (s1 : State) (D1 : List Nat) (nx : Addr) (fl : Nat), g m ≠ 0 → Agree s0 s1 g D1 → postNext s1 depth (g m) = some nx →
        ∃ s2, Agree s0 s2 g (D1 ++ [m]) ∧ forEachSafe body depth (fl + 1) s1 (g m) = (forEachSafe body depth fl s2 nx).map (g m :: ·) := by
      intro m s1 D1 nx fl hm hag e
      refine ⟨body s1 (g m), agree_body h0 hb hag, ?_⟩
      rw [forEachSafe, if_neg hm, e, Option.bind_some]
    by_cases c : 2 * k ≤ s0.count
    · have hl : g (2 * k) ≠ 0 := (h0.number _).2 ⟨by omega, c⟩
      have hpl : s0.parent (g (2 * k)) = g k := by rw [h0.parent _ hl]; congr 1; omega
      have hdeep : deep s0.count (d + 1) k = deep s0.count d (2 * k) := by rw [deep, if_pos c]
      by_cases c2 : 2 * k + 1 ≤ s0.count
      · have hr : g (2 * k + 1) ≠ 0 := (h0.number _).2 ⟨by omega, c2⟩
        have hpr : s0.parent (g (2 * k + 1)) = g k := by rw [h0.parent _ hr]; congr 1; omega
        have hsub : sub s0.count (d + 1) k = (sub s0.count d (2 * k) ++ [2 * k]) ++ (sub s0.count d (2 * k + 1) ++ [2 * k + 1]) := by
          rw [sub, if_pos c, if_pos c2]
        rw [hsub] at hs ⊢
        rw [hdeep]
        obtain ⟨s1, a1, e1⟩ := visit h0 hb hdep d (2 * k) (by omega) c (by omega) (by omega) s D (fuel + 1 + (sub s0.count d (2 * k + 1)).length + 1) ha
          (hs _ (by simp)) (fun y hy => hs y (by simp [hy]))
        -- none of these is on the right
        have hnl : ∀ y, Under (2 * k + 1) y → y ∉ D → y ∉ D ++ sub s0.count d (2 * k) ++ [2 * k] := by
          intro y hy hd hm
          simp only [List.mem_append, List.mem_singleton] at hm
          rcases hm with (hm | hm) | rfl
          · exact hd hm
          · exact under_apart h1 (sub_under d (2 * k) (by omega) hm).1 hy
          · have := under_ge hy; omega
        have hkD : k ∉ D ++ sub s0.count d (2 * k) := by
          rw [List.mem_append]
          rintro (h | h)
          · exact hk h
          · have := (sub_under d (2 * k) (by omega) h).2.2; omega
        have h2D : 2 * k ∉ D ++ sub s0.count d (2 * k) := by
          rw [List.mem_append]
          rintro (h | h)
          · exact hs _ (by simp) h
          · have := (sub_under d (2 * k) (by omega) h).2.2; omega
        have hrD : 2 * k + 1 ∉ D ++ sub s0.count d (2 * k) ++ [2 * k] := hnl _ ⟨0, by simp⟩ (hs _ (by simp))
        have hrs : ∀ y ∈ sub s0.count d (2 * k + 1), y ∉ D ++ sub s0.count d (2 * k) ++ [2 * k] := fun y hy => hnl y (sub_under d _ (by omega) hy).1 (hs y (by simp [hy]))
        have n1 : postNext s1 depth (g (2 * k)) = some (g (deep s0.count d (2 * k + 1))) := by
          obtain ⟨f1, f2, f3⟩ := a1 (2 * k) hl h2D
          obtain ⟨k1, k2, k3⟩ := a1 k hg hkD
          unfold postNext
          rw [if_neg hl]
          dsimp only
          rw [f3, hpl, k1, k2, h0.left k hg, h0.right k hg, if_pos ⟨hg, rfl, hr⟩]
          exact leftDeep_eq h0 a1 d (2 * k + 1) depth (by omega) c2 (by omega) (by omega) (fun e => hrD (List.mem_append_left _ e)) (fun y hy e => hrs y hy (List.mem_append_left _ e))
        obtain ⟨s2, a2, e2⟩ := step (2 * k) s1 _ _ (fuel + 1 + (sub s0.count d (2 * k + 1)).length) hl a1 n1
        obtain ⟨s3, a3, e3⟩ := visit h0 hb hdep d (2 * k + 1) (by omega) c2 (by omega) (by omega) s2 _ (fuel + 1) a2 hrD hrs
        have hkD3 : k ∉ D ++ sub s0.count d (2 * k) ++ [2 * k] ++ sub s0.count d (2 * k + 1) := by
          simp only [List.mem_append, List.mem_singleton, not_or] at hkD ⊢
          refine ⟨⟨hkD, by omega⟩, fun h => ?_⟩
          have := (sub_under d _ (by omega) h).2.2; omega
        have hrD3 : 2 * k + 1 ∉ D ++ sub s0.count d (2 * k) ++ [2 * k] ++ sub s0.count d (2 * k + 1) := by
          rw [List.mem_append]
          rintro (h | h)
          · exact hrD h
          · have := (sub_under d _ (by omega) h).2.2; omega
        have n3 : postNext s3 depth (g (2 * k + 1)) = some (g k) := by
          obtain ⟨f1, f2, f3⟩ := a3 (2 * k + 1) hr hrD3
          obtain ⟨k1, k2, k3⟩ := a3 k hg hkD3
          unfold postNext
          rw [if_neg hr]
          dsimp only
          rw [f3, hpr, k1, h0.left k hg, if_neg]
          rintro ⟨_, e, _⟩
          have := h0.inj _ _ hr e
          omega
        obtain ⟨s4, a4, e4⟩ := step (2 * k + 1) s3 _ _ fuel hr a3 n3
        refine ⟨s4, by simpa [List.append_assoc] using a4, ?_⟩
        have hlen : fuel + ((sub s0.count d (2 * k) ++ [2 * k]) ++ (sub s0.count d (2 * k + 1) ++ [2 * k + 1])).length =
            fuel + 1 + (sub s0.count d (2 * k + 1)).length + 1 + (sub s0.count d (2 * k)).length := by
          simp only [List.length_append, List.length_singleton]; omega
        rw [hlen, e1, e2, e3, e4]
        simp [Option.map_map, Function.comp_def, List.append_assoc]
      · have hr : g (2 * k + 1) = 0 := Classical.byContradiction fun e => c2 ((h0.number _).1 e).2
        have hsub : sub s0.count (d + 1) k = sub s0.count d (2 * k) ++ [2 * k] := by
          rw [sub, if_pos c, if_neg c2, List.append_nil]
        rw [hsub] at hs ⊢
        rw [hdeep]
        obtain ⟨s1, a1, e1⟩ := visit h0 hb hdep d (2 * k) (by omega) c (by omega) (by omega) s D (fuel + 1) ha (hs _ (by simp)) (fun y hy => hs y (by simp [hy]))
        have hkD : k ∉ D ++ sub s0.count d (2 * k) := by
          rw [List.mem_append]
          rintro (h | h)
          · exact hk h
          · have := (sub_under d (2 * k) (by omega) h).2.2; omega
        have h2D : 2 * k ∉ D ++ sub s0.count d (2 * k) := by
          rw [List.mem_append]
          rintro (h | h)
          · exact hs _ (by simp) h
          · have := (sub_under d (2 * k) (by omega) h).2.2; omega
        have n1 : postNext s1 depth (g (2 * k)) = some (g k) := by
          obtain ⟨f1, f2, f3⟩ := a1 (2 * k) hl h2D
          obtain ⟨k1, k2, k3⟩ := a1 k hg hkD
          unfold postNext
          rw [if_neg hl]
          dsimp only
          rw [f3, hpl, k1, k2, h0.left k hg, h0.right k hg, hr, if_neg (by simp)]
        obtain ⟨s2, a2, e2⟩ := step (2 * k) s1 _ _ fuel hl a1 n1
        refine ⟨s2, by simpa [List.append_assoc] using a2, ?_⟩
        have hlen : fuel + (sub s0.count d (2 * k) ++ [2 * k]).length = fuel + 1 + (sub s0.count d (2 * k)).length := by
          simp only [List.length_append, List.length_singleton]; omega
        rw [hlen, e1, e2]
        simp [Option.map_map, Function.comp_def, List.append_assoc]
    · have hsub : sub s0.count (d + 1) k = [] := by
        rw [sub, if_neg c, if_neg (by omega)]; rfl
      have hdeep : deep s0.count (d + 1) k = k := by unfold deep; rw [if_neg c]
      rw [hsub, hdeep]
      exact ⟨s, by simpa using ha, by simp⟩

/-- The numbers of all nodes in the order of the walk. -/
def order (n : Nat) : List Nat := if n = 0 then [] else sub n n 1 ++ [1]

theorem order_perm (n : Nat) : (order n).Perm ((List.range n).map (· + 1)) := by
  unfold order
  split
  · rename_i h; subst h; simp
  · rename_i h
    refine (List.perm_ext_iff_of_nodup ?_ ?_).2 fun y => ?_
    · refine List.nodup_append.2 ⟨sub_nodup n 1 (by omega), by simp, fun a ha b hb => ?_⟩
      rw [List.mem_singleton] at hb
      have := (sub_under n 1 (by omega) ha).2.2
      omega
    · exact List.Pairwise.map _ (fun _ _ h e => h (by omega)) List.nodup_range
    · simp only [List.mem_append, List.mem_singleton, List.mem_map, List.mem_range]
      constructor
      · rintro (hy | rfl)
        · obtain ⟨_, h2, h3⟩ := sub_under n 1 (by omega) hy
          exact ⟨y - 1, by omega, by omega⟩
        · exact ⟨0, by omega, rfl⟩
      · rintro ⟨x, hx, rfl⟩
        by_cases h1 : x = 0
        · right; omega
        · left
          have hlog : (x + 1).log2 ≠ 0 := by
            intro e
            have := Nat.lt_log2_self (n := x + 1)
            rw [e] at this
            omega
          refine mem_sub n 1 (by omega) (by omega) (by omega) ((x + 1).log2 - 1) ?_
          rw [Nat.sub_add_cancel (by omega)]
          have h2 := Nat.log2_self_le (n := x + 1) (by omega)
          have h3 := Nat.lt_log2_self (n := x + 1)
          rw [Nat.pow_succ] at h3
          refine Nat.div_eq_of_lt_le (by omega) ?_
          omega

theorem sub_before {n : Nat} : ∀ (d k : Nat), 1 ≤ k → ∀ m, m ∈ sub n d k → m / 2 = k ∨ ∃ a b c, sub n d k = a ++ m :: b ++ (m / 2) :: c
  | 0, _, _, _, h => by cases h
  | d + 1, k, hk, m, h => by
    have part : ∀ j, (j = 2 * k ∨ j = 2 * k + 1) → m ∈ (if j ≤ n then sub n d j ++ [j] else []) →
        m / 2 = k ∨ ∃ a b c, (if j ≤ n then sub n d j ++ [j] else []) = a ++ m :: b ++ (m / 2) :: c := by
      intro j hj hm
      split at hm
      · rw [if_pos (by assumption)]
        rw [List.mem_append, List.mem_singleton] at hm
        rcases hm with hm | rfl
        · right
          rcases sub_before d j (by omega) m hm with e | ⟨a, b, c, e⟩
          · obtain ⟨a, b, e2⟩ := List.append_of_mem hm
            exact ⟨a, b, [], by rw [e, e2]⟩
          · exact ⟨a, b, c ++ [j], by rw [e]; simp⟩
        · left; omega
      · cases hm
    unfold sub at h ⊢
    rw [List.mem_append] at h
    rcases h with h | h
    · rcases part _ (Or.inl rfl) h with e | ⟨a, b, c, e⟩
      · exact Or.inl e
      · exact Or.inr ⟨a, b, c ++ (if 2 * k + 1 ≤ n then sub n d (2 * k + 1) ++ [2 * k + 1] else []), by rw [e]; simp⟩
    · rcases part _ (Or.inr rfl) h with e | ⟨a, b, c, e⟩
      · exact Or.inl e
      · exact Or.inr ⟨(if 2 * k ≤ n then sub n d (2 * k) ++ [2 * k] else []) ++ a, b, c, by rw [e]; simp⟩

/-- **C93.** Walking a heap in postorder, whatever the loop does to the node it is given — also freeing it: every node is visited exactly once, and after its children. -/
theorem post_safe {cmp : Addr → Addr → Int} {s : State} {S : List Addr} (h : IsHeap cmp s S) {body : State → Addr → State} (hb : Private body) {depth fuel : Nat} (hd : S.length + 1 < depth)
    (hf : S.length < fuel) : ∃ pos L, postFirst s depth = some pos ∧ forEachSafe body depth fuel s pos = some L ∧ L.Perm S ∧ ∀ x ∈ S, s.parent x ≠ 0 → Before L x (s.parent x) := by
  obtain ⟨g, h0, _, hp⟩ := h
  have hlen : s.count = S.length := by rw [← hp.length_eq]; simp [nodes]
  rw [← hlen] at hd hf
  have key : ∃ pos, postFirst s depth = some pos ∧ forEachSafe body depth fuel s pos = some ((order s.count).map g) := by
    by_cases hn : s.count = 0
    · have hr : s.root = 0 := by
        rw [h0.root]
        exact Classical.byContradiction fun e => by have := ((h0.number 1).1 e).2; omega
      refine ⟨0, by unfold postFirst; rw [if_pos hr], ?_⟩
      obtain ⟨f, rfl⟩ : ∃ f, fuel = f + 1 := ⟨fuel - 1, by omega⟩
      unfold forEachSafe order
      rw [if_pos rfl, if_pos hn]; rfl
    · have h1 : g 1 ≠ 0 := (h0.number 1).2 ⟨by omega, by omega⟩
      have ha : Agree s s g [] := fun _ _ _ => ⟨rfl, rfl, rfl⟩
      refine ⟨g (deep s.count s.count 1), ?_, ?_⟩
      · unfold postFirst
        rw [h0.root, if_neg h1]
        exact leftDeep_eq h0 ha s.count 1 depth (by omega) (by omega) (by omega) (by omega) (by simp) (by simp)
      · have hcount : (order s.count).length = s.count := by rw [(order_perm _).length_eq]; simp
        have hsl : (sub s.count s.count 1).length + 1 = s.count := by
          unfold order at hcount
          rw [if_neg hn, List.length_append, List.length_singleton] at hcount
          exact hcount
        obtain ⟨f, rfl⟩ : ∃ f, fuel = (f + 1 + 1) + (sub s.count s.count 1).length := ⟨fuel - s.count - 1, by omega⟩
        obtain ⟨s', a', e'⟩ := visit h0 hb (by omega) s.count 1 (by omega) (by omega) (by omega) (by omega) s [] (f + 1 + 1) ha (by simp) (by simp)
        rw [e']
        have h1D : 1 ∉ [] ++ sub s.count s.count 1 := by
          rw [List.nil_append]
          intro h
          have := (sub_under _ _ (by omega) h).2.2
          omega
        have hp1 : s'.parent (g 1) = 0 := by
          rw [(a' 1 h1 h1D).2.2, h0.parent 1 h1]
          exact Classical.byContradiction fun e => by have := ((h0.number (1 / 2)).1 e).1; omega
        have hnext : postNext s' depth (g 1) = some 0 := by
          unfold postNext
          rw [if_neg h1]
          dsimp only
          rw [hp1, if_neg (by simp)]
        have hlast : forEachSafe body depth (f + 1 + 1) s' (g 1) = some [g 1] := by
          rw [forEachSafe, if_neg h1, hnext]
          rw [Option.bind_some, forEachSafe, if_pos rfl]
          rfl
        rw [hlast]
        unfold order
        rw [if_neg hn]
        simp
  obtain ⟨pos, e1, e2⟩ := key
  refine ⟨pos, _, e1, e2, ?_, fun x hx hpx => ?_⟩
  · refine ((order_perm s.count).map g).trans ?_
    rw [List.map_map]
    exact hp
  · have hx' := (hp.mem_iff).2 hx
    unfold nodes at hx'
    obtain ⟨j, hj, rfl⟩ := List.mem_map.1 hx'
    rw [List.mem_range] at hj
    have hg : g (j + 1) ≠ 0 := (h0.number _).2 ⟨by omega, by omega⟩
    rw [h0.parent _ hg] at hpx ⊢
    have hj2 : 1 ≤ (j + 1) / 2 := ((h0.number _).1 hpx).1
    have hm : j + 1 ∈ order s.count := (order_perm _).mem_iff.2 (List.mem_map.2 ⟨j, List.mem_range.2 hj, rfl⟩)
    have hb : ∃ a b c, order s.count = a ++ (j + 1) :: b ++ ((j + 1) / 2) :: c := by
      unfold order at hm ⊢
      rw [if_neg (by omega)] at hm ⊢
      rw [List.mem_append, List.mem_singleton] at hm
      rcases hm with hm | hm
      · rcases sub_before _ 1 (by omega) _ hm with e | ⟨a, b, c, e⟩
        · obtain ⟨a, b, e2⟩ := List.append_of_mem hm
          exact ⟨a, b, [], by rw [e, e2]⟩
        · exact ⟨a, b, c ++ [1], by rw [e]; simp⟩
      · omega
    obtain ⟨a, b, c, e⟩ := hb
    exact ⟨a.map g, b.map g, c.map g, by rw [e]; simp⟩

/-- A heap of five nodes, and a body that overwrites all fields of the node it is given. -/
example : ((List.foldlM (fun s x => insert (fun a b => (a : Int) - b) 10 s x) (init ⟨fun _ => 0, fun _ => 0, fun _ => 0, 0, 0⟩) [5, 3, 8, 1, 9]).bind fun s =>
    (postFirst s 10).bind fun p => (forEachSafe (fun s x => s.setNode x 77 77 77) 10 10 s p).map fun l => (l, (nodes s fun k => [0, 1, 3, 8, 5, 9].getD k 0))) =
    some ([5, 9, 3, 8, 1], [1, 3, 8, 5, 9]) := by decide +kernel

end Bfdev.Heap.Post
