import Verif.Skiplist.Lemmas
/-! Properties of the skip list. -/
namespace Bfdev.Skiplist

variable {κ : Type} {cmp : κ → κ → Int}

theorem Inv.new {levels : Nat} {key : Nat → κ} {s : Skip κ} (h : create levels key = some s) : Inv cmp s (fun _ => 0) := by
  unfold create at h
  split at h
  · cases h
  · cases h
    exact ⟨fun _ => rfl, by simp, by simp, fun h => by simp at h, List.nodup_nil, List.nodup_nil, by simp, List.Pairwise.nil, by simp only; omega⟩

theorem freeLoop_ok : ∀ (l live : List Nat), l.Nodup → live.Nodup → (∀ n, n ∈ l ↔ n ∈ live) → freeLoop l live = some [] := by
  intro l
  induction l with
  | nil =>
    intro live _ _ h
    cases live with
    | nil => rfl
    | cons x live => have := (h x).2 (by simp); cases this
  | cons n l ih =>
    intro live h1 h2 h
    unfold freeLoop
    rw [if_pos ((h n).1 (by simp))]
    obtain ⟨h3, h4⟩ := List.nodup_cons.1 h1
    refine ih _ h4 (h2.erase _) fun m => ?_
    rw [h2.mem_erase_iff, ← h m, List.mem_cons]
    constructor
    · intro hm; exact ⟨fun e => h3 (e ▸ hm), Or.inr hm⟩
    · rintro ⟨hm, hm2 | hm2⟩
      · exact absurd hm2 hm
      · exact hm2

theorem reset_ok {s : Skip κ} {ht : Nat → Nat} (h : Inv cmp s ht) :
    ∃ s', reset s = some (s', s.items) ∧ Inv cmp s' ht ∧ s'.lv 0 = [] ∧ s'.live = [] := by
  have hhigh : ∀ k, ¬ k < s.levels → s.lv k = [] := by
    intro k hk
    rw [h.lv]
    exact F_top fun x hx => by have := (h.pos x hx).2; have := h.cur; omega
  have hlv : (fun k => if k < s.levels then ([] : List Nat) else s.lv k) = fun _ => [] := by
    funext k
    split
    · rfl
    · exact hhigh k (by assumption)
  refine ⟨{ s with lv := fun _ => [], curr := 0, live := [] }, ?_, ?_, rfl, rfl⟩
  · unfold reset
    rw [freeLoop_ok _ _ h.nd h.lnd h.live, hlv]
    rfl
  · exact ⟨fun _ => rfl, by simp, by simp, fun h => by simp at h, List.nodup_nil, List.nodup_nil, by simp, List.Pairwise.nil, h.lpos⟩

theorem refuse_ok {s : Skip κ} {ht : Nat → Nat} (h : Inv cmp s ht) (key : κ) {rand : Nat → Nat} (ho : ∀ level, randomLevel s.levels rand = some level → level ≤ s.curr) :
    insert s key cmp rand none = some (s, -12) := by
  obtain ⟨level, e1, hl1, hl2⟩ := random_level h.lpos rand
  unfold insert
  rw [e1, Option.bind_some]
  dsimp only
  rw [Nat.max_eq_left (ho level e1)]

theorem step_ok (ho : Order cmp) {s : Skip κ} {ht : Nat → Nat} (h : Inv cmp s ht) {op : Op κ} (hop : ok cmp s op) :
    ∃ s' ht', step cmp s op = some s' ∧ Inv cmp s' ht' := by
  cases op with
  | insert key rand new =>
    cases new with
    | none =>
      have e := refuse_ok h key hop
      exact ⟨s, ht, by simp only [step, e, Option.map_some], h⟩
    | some n =>
      obtain ⟨s', ht', A, B, e, h', -⟩ := insert_ok ho h key rand (n := n) hop
      exact ⟨s', ht', by simp only [step, e, Option.map_some], h'⟩
  | delete c =>
    obtain ⟨s', e, h', -⟩ := delete_ok h hop
    exact ⟨s', ht, e, h'⟩
  | reset =>
    obtain ⟨s', e, h', -⟩ := reset_ok h
    exact ⟨s', ht, by simp only [step, e, Option.map_some], h'⟩

theorem Inv.reach (ho : Order cmp) {s : Skip κ} (h : Reach cmp s) : ∃ ht, Inv cmp s ht := by
  induction h with
  | new e => exact ⟨_, Inv.new e⟩
  | step _ h2 h3 ih =>
    obtain ⟨ht, ih⟩ := ih
    obtain ⟨s', ht', e, h'⟩ := step_ok ho ih h2
    rw [h3] at e
    cases e
    exact ⟨ht', h'⟩

/-- C24. For every history and every choice of levels: each level is an ordered part of the one below, the nodes are those allocated, and every
further call is well defined. -/
theorem skip_sound_partial (ho : Order cmp) {s : Skip κ} (h : Reach cmp s) : Sound cmp s ∧ ∀ op, ok cmp s op → ∃ s', step cmp s op = some s' := by
  obtain ⟨ht, hi⟩ := Inv.reach ho h
  refine ⟨⟨fun k => ?_, hi.sorted, hi.nd, hi.live⟩, fun op hop => ?_⟩
  · rw [hi.lv, hi.lv k, F_F]
    exact List.filter_sublist
  · obtain ⟨s', ht', e, -⟩ := step_ok ho hi hop
    exact ⟨s', e⟩

/-- C24. A search is well defined and finds a node with the key searched if and only if there is one. -/
theorem find_result (ho : Order cmp) {s : Skip κ} (h : Reach cmp s) {c : κ → Int} (hc : Agrees cmp c) :
    ∃ r, find s c = some r ∧ (∀ n, r = some n → n ∈ s.lv 0 ∧ c (s.key n) = 0) ∧ (r.isSome ↔ ∃ k ∈ s.items, c k = 0) := by
  obtain ⟨ht, hi⟩ := Inv.reach ho h
  obtain ⟨r, e, h1, h2⟩ := nodeFind_ok hi hc
  refine ⟨r.map (·.1), by unfold find; rw [e]; rfl, ?_, ?_⟩
  · intro n hn
    cases r with
    | none => cases hn
    | some wl =>
      cases hn
      obtain ⟨h3, h4, -⟩ := h2 wl.1 wl.2 rfl
      exact ⟨h3, h4⟩
  · cases r with
    | none =>
      refine ⟨fun h => (by cases h), ?_⟩
      rintro ⟨k, hk, hk2⟩
      obtain ⟨n, hn, rfl⟩ := List.mem_map.1 hk
      exact absurd hk2 (h1 rfl n hn)
    | some wl =>
      obtain ⟨h3, h4, -⟩ := h2 wl.1 wl.2 rfl
      exact ⟨fun _ => ⟨_, List.mem_map.2 ⟨_, h3, rfl⟩, h4⟩, fun _ => rfl⟩

/-- C24. An insertion puts the key behind the smaller keys and before the others; one that is refused memory changes nothing, if the level drawn is
not above all others. -/
theorem insert_result (ho : Order cmp) {s : Skip κ} (h : Reach cmp s) (key : κ) (rand : Nat → Nat) :
    (∀ n, n ∉ s.live → ∃ s' K K', insert s key cmp rand (some n) = some (s', 0) ∧ s.items = K ++ K' ∧ s'.items = K ++ key :: K' ∧
      (∀ k ∈ K, cmp k key < 0) ∧ (∀ k ∈ K', 0 ≤ cmp k key) ∧ s'.live = n :: s.live) ∧
    ((∀ level, randomLevel s.levels rand = some level → level ≤ s.curr) → insert s key cmp rand none = some (s, -12)) := by
  obtain ⟨ht, hi⟩ := Inv.reach ho h
  refine ⟨fun n hn => ?_, refuse_ok hi key⟩
  obtain ⟨s', ht', A, B, e, h', e1, e2, hA, hB, hk, hl, -⟩ := insert_ok ho hi key rand hn
  have hn0 : n ∉ s.lv 0 := fun hh => hn ((hi.live n).1 hh)
  have hkey : ∀ X : List Nat, (∀ x ∈ X, x ∈ s.lv 0) → X.map s'.key = X.map s.key := by
    intro X hX
    refine List.map_congr_left fun x hx => ?_
    rw [hk]
    exact if_neg (show ¬ x = n from fun e => hn0 (e ▸ hX x hx))
  refine ⟨s', A.map s.key, B.map s.key, e, by unfold Skip.items; rw [e1, List.map_append], ?_, ?_, ?_, hl⟩
  · unfold Skip.items
    rw [e2, List.map_append, List.map_cons, hkey A (fun x hx => by rw [e1]; simp [hx]), hkey B (fun x hx => by rw [e1]; simp [hx]), hk]
    rw [show upd s.key n key n = key from if_pos rfl]
  · intro k hk
    obtain ⟨x, hx, rfl⟩ := List.mem_map.1 hk
    exact hA x hx
  · intro k hk
    obtain ⟨x, hx, rfl⟩ := List.mem_map.1 hk
    exact hB x hx

/-- C24. A deletion takes out one node with the key searched, if there is one, and gives its memory back; otherwise nothing changes. -/
theorem delete_result (ho : Order cmp) {s : Skip κ} (h : Reach cmp s) {c : κ → Int} (hc : Agrees cmp c) :
    ∃ s', delete s c = some s' ∧ ((s' = s ∧ ∀ k ∈ s.items, c k ≠ 0) ∨
      ∃ n K k K', s.items = K ++ k :: K' ∧ c k = 0 ∧ s'.items = K ++ K' ∧ s.live.Perm (n :: s'.live)) := by
  obtain ⟨ht, hi⟩ := Inv.reach ho h
  obtain ⟨s', e, h', hk, -, h2⟩ := delete_ok hi hc
  refine ⟨s', e, ?_⟩
  rcases h2 with ⟨h3, h4⟩ | ⟨n, hn, h3, h4, h5⟩
  · refine Or.inl ⟨h3, fun k hk => ?_⟩
    obtain ⟨x, hx, rfl⟩ := List.mem_map.1 hk
    exact h4 x hx
  · obtain ⟨A, B, e1⟩ := List.append_of_mem hn
    have hnd := hi.nd
    rw [e1] at hnd
    have hnA : n ∉ A := fun hh => (List.nodup_append.1 hnd).2.2 n hh n (by simp) rfl
    refine Or.inr ⟨n, A.map s.key, s.key n, B.map s.key, ?_, h3, ?_, ?_⟩
    · unfold Skip.items
      rw [e1, List.map_append, List.map_cons]
    · unfold Skip.items
      rw [h4, hk, e1, List.erase_append_right _ hnA, List.erase_cons_head, List.map_append]
    · rw [h5]
      exact List.perm_cons_erase ((hi.live n).1 hn)

/-- C24. A reset hands every key to the release function once, in order, gives all memory back and leaves an empty list. -/
theorem reset_result (ho : Order cmp) {s : Skip κ} (h : Reach cmp s) : ∃ s', reset s = some (s', s.items) ∧ s'.items = [] ∧ s'.live = [] := by
  obtain ⟨ht, hi⟩ := Inv.reach ho h
  obtain ⟨s', e, -, h2, h3⟩ := reset_ok hi
  exact ⟨s', e, by unfold Skip.items; rw [h2]; rfl, h3⟩

/-- Comparing numbers. -/
def icmp (a b : Int) : Int := a - b

theorem icmp_order : Order icmp := ⟨fun a b => by unfold icmp; omega, fun a b c h1 h2 => by unfold icmp at *; omega⟩

theorem icmp_agrees (k : Int) : Agrees icmp (fun x => x - k) := fun a b h => by unfold icmp at h; dsimp only; exact ⟨fun h2 => by omega, fun h2 => by omega⟩

/-- Levels drawn by `rand`: `k` rounds that go on. -/
def draw (k : Nat) : Nat → Nat := fun i => if i < k then 0 else 2 ^ 31 - 1

/-- Insertions of keys with the given numbers of rounds into the given nodes. -/
def fill : List (Int × Nat × Nat) → Skip Int → Option (Skip Int)
  | [], s => some s
  | (k, r, n) :: l, s => if n ∈ s.live then none else (step icmp s (.insert k (draw r) (some n))).bind (fill l)

theorem fill_reach : ∀ {l : List (Int × Nat × Nat)} {s s' : Skip Int}, Reach icmp s → fill l s = some s' → Reach icmp s' := by
  intro l
  induction l with
  | nil => intro s s' h e; cases e; exact h
  | cons x l ih =>
    intro s s' h e
    obtain ⟨k, r, n⟩ := x
    unfold fill at e
    by_cases hn : n ∈ s.live
    · rw [if_pos hn] at e; cases e
    · rw [if_neg hn] at e
      obtain ⟨s1, e1, e2⟩ := Option.bind_eq_some_iff.1 e
      exact ih (.step (op := .insert k (draw r) (some n)) h hn e1) e2

/-- Four insertions with levels 1, 3, 2 and 1. -/
def demo : Option (Skip Int) := (create 4 (fun _ => 0)).bind (fill [(5, 0, 100), (3, 2, 200), (9, 1, 300), (5, 0, 400)])

theorem demo_result : (demo.map fun s => (s.items, s.lv 0, s.lv 1, s.lv 2, s.curr)) = some ([3, 5, 5, 9], [200, 400, 100, 300], [200, 300], [200], 3) := by
  decide +kernel

/-- The hypotheses are met by a list with three levels. -/
example : ∃ s, Reach icmp s ∧ s.items = [3, 5, 5, 9] ∧ s.curr = 3 := by
  obtain ⟨s, e1, e2⟩ := Option.map_eq_some_iff.1 demo_result
  obtain ⟨s0, e3, e4⟩ := Option.bind_eq_some_iff.1 e1
  injection e2 with e5 e6
  injection e6 with _ e6
  injection e6 with _ e6
  injection e6 with _ e6
  exact ⟨s, fill_reach (.new e3) e4, e5, e6⟩

example : (demo.bind fun s => find s (fun x => x - 9)) = some (some 300) := by decide +kernel
example : (demo.bind fun s => find s (fun x => x - 4)) = some none := by decide +kernel
example : ((demo.bind fun s => delete s (fun x => x - 3)).map fun s => (s.items, s.lv 1, s.curr)) = some ([5, 5, 9], [300], 2) := by decide +kernel

/-- C24. An insertion that is refused memory after drawing a level above all others leaves an empty top level, and the next search reads the
result of a comparison that was never made. -/
theorem refused_violated : ∃ s s' : Skip Int, Reach icmp s ∧ insert s 7 icmp (draw 3) none = some (s', -12) ∧ find s' (fun x => x - 5) = none := by
  refine ⟨⟨4, 0, fun _ => [], fun _ => 0, []⟩, ⟨4, 4, fun _ => [], fun _ => 0, []⟩, .new (levels := 4) (key := fun _ => 0) rfl, ?_, by decide +kernel⟩
  have e : randomLevel 4 (draw 3) = some 4 := by decide +kernel
  unfold insert
  rw [e]
  rfl

end Bfdev.Skiplist
