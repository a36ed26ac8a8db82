import Verif.Hashmap.Props
/-!
C126: with the default policies the table of a hash map fits the number of its entries, and exchanging tables costs a constant per call
over any history of calls, whatever allocations fail.
-/
namespace Bfdev.Hashmap.Load
open Bfdev.Dlist (Addr Heap)

/-- What `hashmap_rehash` (hashmap.c:129-157) goes through when it exchanges the table of `m` for that of `m'`: the buckets of the new
table are initialised, those of the old one are visited and every entry is moved. The two tables are live at the same time, so an
exchange shows in the address of the table. A released map has no table. -/
def exchange (m m' : Map) : Nat := if m'.buckets = m.buckets ∨ m'.buckets = 0 then 0 else m.capacity + m'.capacity + m.used

/-- Histories of calls on a map without `extend` and `shrink` callbacks: the state reached, the entries it should have, the number of
calls and what the exchanges of tables went through. If `granted`, then no request for a table of at most the present size is refused. -/
inductive Costs {κ : Type} (hash : κ → BitVec 64) (granted : Prop) : Heap → Map → List (Addr × κ) → Nat → Nat → Prop
  | init {s} : Costs hash granted s Hashmap.init [] 0 0
  | call {s m M n w ops malloc fuel op out} : Costs hash granted s m M n w → ops.extend = none → ops.shrink = none →
      (granted → ∀ bytes, bytes ≤ 8 * m.capacity → malloc bytes ≠ none) → Owed hash ops malloc m M op → M.length < fuel → M.length + 1 < 2 ^ 64 →
      Op.run ops malloc fuel s m op = some out → Costs hash granted out.heap out.map (after M op out.code out.node) (n + 1) (w + exchange m out.map)

theorem reach {κ : Type} {hash : κ → BitVec 64} {granted : Prop} {s : Heap} {m : Map} {M : List (Addr × κ)} {n w : Nat} (h : Costs hash granted s m M n w) :
    Reach hash (fun _ => True) s m M := by
  induction h with
  | init => exact Reach.init
  | call _ _ _ _ ho hf hl hr ih => exact Reach.call ih trivial ho hf hl hr

theorem rehash_map {κ : Type} {ops : Ops κ} {malloc : Nat → Option Addr} {fuel : Nat} {s : Heap} {m : Map} {nb : Nat} {r : Heap × Map × Int}
    (e : rehash ops malloc fuel s m nb = some r) :
    (malloc (2 ^ nb * 8 % 2 ^ 64) = none ∧ r.2.1 = m ∧ r.2.2 = -12) ∨ ∃ q, r.2.1 = ⟨q, nb, 2 ^ nb, m.used⟩ ∧ r.2.2 = 0 := by
  rw [rehash] at e
  by_cases h64 : nb ≥ 64
  · rw [if_pos h64] at e; simp at e
  rw [if_neg h64] at e
  dsimp only at e
  cases hq : malloc (2 ^ nb * 8 % 2 ^ 64) with
  | none =>
    rw [hq] at e
    simp only [Option.some.injEq] at e
    exact Or.inl ⟨rfl, by rw [← e], by rw [← e]⟩
  | some q =>
    rw [hq] at e
    dsimp only at e
    by_cases hs : 2 ^ nb * 8 % 2 ^ 64 < 2 ^ nb * 8
    · rw [if_pos hs] at e; simp at e
    rw [if_neg hs] at e
    obtain ⟨s1, -, e⟩ := Option.bind_eq_some_iff.1 e
    obtain ⟨s2, -, e⟩ := Option.map_eq_some_iff.1 e
    exact Or.inr ⟨q, by rw [← e], by rw [← e]⟩

/-- What a call does to the map structure. -/
inductive Effect (malloc : Nat → Option Addr) (m : Map) : Map → Prop
  | same : Effect malloc m m
  | free : Effect malloc m ⟨0, 0, 0, 0⟩
  | plus : m.capacity ≠ 0 → m.used * 4 % 2 ^ 64 / 3 ≤ m.capacity → Effect malloc m { m with used := (m.used + 1) % 2 ^ 64 }
  | grow (q nb : Nat) : m.capacity = 0 ∨ m.capacity < m.used * 4 % 2 ^ 64 / 3 → nb = max 4 ((m.bits + 1) % 2 ^ 32) →
      Effect malloc m ⟨q, nb, 2 ^ nb, (m.used + 1) % 2 ^ 64⟩
  | minus (u : Nat) : u + 1 = m.used → m.capacity ≠ 0 →
      (m.capacity ≤ u * 4 % 2 ^ 64 ∨ malloc (2 ^ max 4 ((m.bits + 2 ^ 32 - 1) % 2 ^ 32) * 8 % 2 ^ 64) = none) → Effect malloc m { m with used := u }
  | less (q nb u : Nat) : u + 1 = m.used → m.capacity ≠ 0 → u * 4 % 2 ^ 64 < m.capacity → nb = max 4 ((m.bits + 2 ^ 32 - 1) % 2 ^ 32) →
      Effect malloc m ⟨q, nb, 2 ^ nb, u⟩

theorem max4 (x : Nat) : (if x < 4 then 4 else x) = max 4 x := by
  split <;> omega

theorem tail_map {s : Heap} {m : Map} {node : Addr} {v : BitVec 64} {out : Out} (e : insertTail s m node v = some out) :
    out.map = { m with used := (m.used + 1) % 2 ^ 64 } := by
  rw [insertTail] at e
  obtain ⟨s1, -, e⟩ := Option.map_eq_some_iff.1 e
  rw [← e]

theorem insertNew_effect {κ : Type} {ops : Ops κ} (hx : ops.extend = none) {malloc : Nat → Option Addr} {fuel : Nat} {s : Heap} {m : Map} {node : Addr} {st : Strategy}
    {out : Out} (e : insertNew ops malloc fuel s m node st = some out) : Effect malloc m out.map := by
  rw [insertNew] at e
  by_cases hu : st = .update
  · rw [if_pos hu, Option.some.injEq] at e
    rw [← e]; exact Effect.same
  rw [if_neg hu] at e
  cases hn : needExtend ops m with
  | false =>
    rw [hn, if_neg (by simp)] at e
    rw [tail_map e]
    rw [needExtend, hx] at hn
    by_cases hc : m.capacity = 0
    · rw [if_pos hc] at hn; simp at hn
    · rw [if_neg hc] at hn
      exact Effect.plus hc (Nat.not_lt.1 (of_decide_eq_false hn))
  | true =>
    rw [hn, if_pos rfl] at e
    have hgrow : m.capacity = 0 ∨ m.capacity < m.used * 4 % 2 ^ 64 / 3 := by
      rw [needExtend, hx] at hn
      by_cases hc : m.capacity = 0
      · exact Or.inl hc
      · rw [if_neg hc] at hn
        exact Or.inr (of_decide_eq_true hn)
    obtain ⟨r, er, e⟩ := Option.bind_eq_some_iff.1 e
    rw [extend] at er
    rw [max4] at er
    rcases rehash_map er with ⟨-, h1, h2⟩ | ⟨q, h1, h2⟩
    · rw [if_pos (by rw [h2]; decide), Option.some.injEq] at e
      rw [← e, h1]; exact Effect.same
    · rw [if_neg (by rw [h2]; decide)] at e
      rw [tail_map e, h1]
      exact Effect.grow q _ hgrow rfl

theorem effect {κ : Type} {hash : κ → BitVec 64} {s : Heap} {m : Map} {M : List (Addr × κ)} {Bs : List (List Addr)} (h : Holds hash s m M Bs)
    {ops : Ops κ} (hx : ops.extend = none) (hs : ops.shrink = none) {malloc : Nat → Option Addr} {fuel : Nat} {op : Op κ} {out : Out}
    (e : Op.run ops malloc fuel s m op = some out) {nomem : Prop} (hR : Right M nomem op out.code out.node) : Effect malloc m out.map := by
  cases op with
  | insert n key st =>
    simp only [Op.run] at e
    rw [Hashmap.insert] at e
    by_cases ha : st ≠ .append
    · rw [if_pos ha] at e
      obtain ⟨r, -, e⟩ := Option.bind_eq_some_iff.1 e
      by_cases hr : r ≠ 0
      · rw [if_pos hr] at e
        by_cases hadd : st = .add
        · rw [if_pos hadd, Option.some.injEq] at e
          rw [← e]; exact Effect.same
        · rw [if_neg hadd] at e
          obtain ⟨s1, -, e⟩ := Option.map_eq_some_iff.1 e
          rw [← e]; exact Effect.same
      · rw [if_neg hr] at e
        exact insertNew_effect hx e
    · rw [if_neg ha] at e
      exact insertNew_effect hx e
  | find key =>
    simp only [Op.run] at e
    obtain ⟨r, -, e⟩ := Option.map_eq_some_iff.1 e
    rw [← e]; exact Effect.same
  | release =>
    simp only [Op.run, Option.some.injEq] at e
    rw [← e]; exact Effect.free
  | del key =>
    simp only [Op.run] at e
    rw [Hashmap.del] at e
    obtain ⟨r, er, e⟩ := Option.bind_eq_some_iff.1 e
    by_cases hr : r = 0
    · rw [if_pos hr, Option.some.injEq] at e
      rw [← e]; exact Effect.same
    rw [if_neg hr] at e
    have hc : m.capacity ≠ 0 := by
      rcases h.shape with ⟨hb, -⟩ | ⟨-, hc, -⟩
      · rw [findKey, if_pos hb, Option.some.injEq] at er
        exact absurd er.symm hr
      · rw [hc]; exact Nat.pos_iff_ne_zero.1 (Nat.two_pow_pos _)
    obtain ⟨s1, -, e⟩ := Option.bind_eq_some_iff.1 e
    dsimp only at e
    have hu : out.code = 0 → (m.used + 2 ^ 64 - 1) % 2 ^ 64 + 1 = m.used := by
      intro h0
      have hp : 0 < M.length := by
        rcases hR with ⟨x, hx, -⟩ | ⟨-, -, hc⟩
        · exact List.length_pos_of_mem hx
        · rw [h0] at hc; exact absurd hc (by decide)
      have h1 := h.used
      have h2 := h.small
      omega
    cases hn : needShrink ops { m with used := (m.used + 2 ^ 64 - 1) % 2 ^ 64 } with
    | false =>
      rw [hn, if_neg (by simp), Option.some.injEq] at e
      replace hu := hu (by rw [← e])
      rw [← e]
      rw [needShrink, hs] at hn
      exact Effect.minus _ hu hc (Or.inl (Nat.not_lt.1 (of_decide_eq_false hn)))
    | true =>
      rw [hn, if_pos rfl] at e
      rw [needShrink, hs] at hn
      replace hn := of_decide_eq_true hn
      obtain ⟨r, er, e⟩ := Option.map_eq_some_iff.1 e
      replace hu := hu (by rw [← e])
      rw [Hashmap.shrink] at er
      dsimp only at er
      rw [max4] at er
      rcases rehash_map er with ⟨h0, h1, -⟩ | ⟨q, h1, -⟩
      · rw [← e]
        show Effect malloc m r.2.1
        rw [h1]
        exact Effect.minus _ hu hc (Or.inr h0)
      · rw [← e]
        show Effect malloc m r.2.1
        rw [h1]
        exact Effect.less q _ _ hu hc hn rfl

/-- The sizes of a table: none, or a power of two of at least sixteen buckets. -/
theorem sizes {m : Map} (h : Shape m) : m.capacity = 0 ∨ (16 ≤ m.capacity ∧ m.capacity < 2 ^ 60 ∧ m.capacity % 4 = 0 ∧
    2 ^ max 4 ((m.bits + 1) % 2 ^ 32) = 2 * m.capacity ∧
    ((m.capacity = 16 ∧ 2 ^ max 4 ((m.bits + 2 ^ 32 - 1) % 2 ^ 32) = 16) ∨ (32 ≤ m.capacity ∧ 2 * 2 ^ max 4 ((m.bits + 2 ^ 32 - 1) % 2 ^ 32) = m.capacity))) := by
  rcases h with ⟨-, h, -⟩ | ⟨-, hc, h4, h59⟩
  · exact Or.inl h
  right
  obtain ⟨d, hd⟩ : ∃ d, m.bits = d + 4 := ⟨m.bits - 4, by omega⟩
  have hp : 1 ≤ 2 ^ d := Nat.two_pow_pos d
  have e0 : m.capacity = 16 * 2 ^ d := by rw [hc, hd, Nat.pow_add, Nat.mul_comm]
  have e1 : max 4 ((m.bits + 1) % 2 ^ 32) = d + 4 + 1 := by omega
  have hlt : m.capacity < 2 ^ 60 := by rw [hc]; exact Nat.pow_lt_pow_right (by decide) (by omega)
  refine ⟨by omega, hlt, by omega, by rw [e1, Nat.pow_succ, hc, hd, Nat.mul_comm], ?_⟩
  cases d with
  | zero =>
    left
    have e2 : max 4 ((m.bits + 2 ^ 32 - 1) % 2 ^ 32) = 4 := by omega
    exact ⟨by rw [e0], by rw [e2]⟩
  | succ d =>
    right
    have e2 : max 4 ((m.bits + 2 ^ 32 - 1) % 2 ^ 32) = d + 4 := by omega
    have hp' : 1 ≤ 2 ^ d := Nat.two_pow_pos d
    rw [Nat.pow_succ] at e0
    refine ⟨by omega, ?_⟩
    rw [e2, e0, Nat.pow_add]
    omega

/-- The potential of a table of `c` buckets with `u` entries. -/
def pot (u c : Nat) : Nat := 12 * (2 * u - c) + 4 * (c - 2 * u)

theorem exchange_le (m m' : Map) : exchange m m' ≤ m.capacity + m'.capacity + m.used := by
  rw [exchange]; split <;> omega

theorem exchange_same {m m' : Map} (h : m'.buckets = m.buckets) : exchange m m' = 0 := by
  rw [exchange, if_pos (Or.inl h)]

/-- One call: entries and buckets before and after. -/
theorem one {malloc : Nat → Option Addr} {m m' : Map} (hs : Shape m) (he : Effect malloc m m')
    (h0 : m.capacity = 0 → m.used = 0) (hl : 4 * (m.used - 1) ≤ 3 * m.capacity) :
    4 * (m'.used - 1) ≤ 3 * m'.capacity ∧ exchange m m' + pot m'.used m'.capacity ≤ pot m.used m.capacity + 72 ∧
    ((∀ bytes, bytes ≤ 8 * m.capacity → malloc bytes ≠ none) → (m.capacity ≤ 16 ∨ m.capacity ≤ 4 * m.used) → m'.capacity ≤ 16 ∨ m'.capacity ≤ 4 * m'.used) := by
  have hz := sizes hs
  have hsmall : m.capacity < 2 ^ 60 := by omega
  have hm1 : m.used * 4 % 2 ^ 64 = m.used * 4 := Nat.mod_eq_of_lt (by omega)
  have hm2 : (m.used + 1) % 2 ^ 64 = m.used + 1 := Nat.mod_eq_of_lt (by omega)
  cases he with
  | same => exact ⟨hl, by rw [exchange_same rfl]; omega, fun _ h => h⟩
  | free => exact ⟨by simp, by simp [exchange, pot], fun _ _ => Or.inl (by simp)⟩
  | plus hc hn =>
    rw [exchange_same (m := m) (m' := { m with used := (m.used + 1) % 2 ^ 64 }) rfl, hm2]
    rw [hm1] at hn
    refine ⟨?_, ?_, fun _ h => ?_⟩
    · show 4 * (m.used + 1 - 1) ≤ 3 * m.capacity
      omega
    · show 0 + pot (m.used + 1) m.capacity ≤ _
      rw [pot, pot]
      omega
    · show m.capacity ≤ 16 ∨ m.capacity ≤ 4 * (m.used + 1)
      omega
  | grow q nb hg hb =>
    have hx := exchange_le m ⟨q, nb, 2 ^ nb, (m.used + 1) % 2 ^ 64⟩
    generalize exchange m ⟨q, nb, 2 ^ nb, (m.used + 1) % 2 ^ 64⟩ = x at *
    dsimp only at hx ⊢
    rw [hm2]
    rw [hm1] at hg
    rw [pot, pot]
    by_cases hc : m.capacity = 0
    · have hnb : nb = 4 := by
        rcases hs with ⟨-, -, h⟩ | ⟨-, h, -⟩
        · rw [h] at hb; exact hb
        · rw [hc] at h; exact absurd h.symm (Nat.pos_iff_ne_zero.1 (Nat.two_pow_pos _))
      subst hnb
      have := h0 hc
      refine ⟨by omega, by omega, fun _ _ => by omega⟩
    · rw [hb] at hx ⊢
      rw [(hz.resolve_left hc).2.2.2.1] at hx ⊢
      refine ⟨by omega, by omega, fun _ _ => by omega⟩
  | minus u hv hc hn =>
    rw [exchange_same (m := m) (m' := { m with used := u }) rfl]
    dsimp only
    refine ⟨by omega, ?_, fun hg h => ?_⟩
    · rw [pot, pot]; omega
    · have hm3 : u * 4 % 2 ^ 64 = u * 4 := Nat.mod_eq_of_lt (by omega)
      rw [hm3] at hn
      rcases hn with hn | hn
      · omega
      · refine absurd hn (hg _ ?_)
        refine Nat.le_trans (Nat.mod_le _ _) ?_
        rcases (hz.resolve_left hc).2.2.2.2 with ⟨h1, h2⟩ | ⟨h1, h2⟩
        · rw [h2, h1]; decide
        · omega
  | less q nb u hv hc hn hb =>
    have hx := exchange_le m ⟨q, nb, 2 ^ nb, u⟩
    generalize exchange m ⟨q, nb, 2 ^ nb, u⟩ = x at *
    dsimp only at hx ⊢
    have hm3 : u * 4 % 2 ^ 64 = u * 4 := Nat.mod_eq_of_lt (by omega)
    rw [hm3] at hn
    rw [← hb] at hz
    generalize 2 ^ nb = C at *
    rw [pot, pot]
    refine ⟨by omega, by omega, fun _ h => by omega⟩

theorem all {κ : Type} {hash : κ → BitVec 64} {granted : Prop} {s : Heap} {m : Map} {M : List (Addr × κ)} {n w : Nat} (h : Costs hash granted s m M n w) :
    4 * (m.used - 1) ≤ 3 * m.capacity ∧ w + pot m.used m.capacity ≤ 72 * n ∧ (granted → m.capacity ≤ 16 ∨ m.capacity ≤ 4 * m.used) := by
  induction h with
  | init => exact ⟨by decide, by decide, fun _ => Or.inl (by decide)⟩
  | @call s m M n w ops malloc fuel op out hc hx hs hg ho hf hl hr ih =>
    obtain ⟨Bs, hB⟩ := reach_holds (reach hc)
    obtain ⟨out', e, hR, -⟩ := call_ok hB ho fuel hf hl
    rw [hr, Option.some.injEq] at e
    subst e
    have h0 : m.capacity = 0 → m.used = 0 := by
      intro h
      have hBs : Bs = [] := List.length_eq_zero_iff.1 (by rw [hB.len, h])
      rw [hB.used, ← hB.flatten_len, hBs]
      rfl
    obtain ⟨i1, i2, i3⟩ := ih
    obtain ⟨o1, o2, o3⟩ := one hB.shape (effect hB hx hs hr hR) h0 i1
    exact ⟨o1, by omega, fun g => o3 (hg g) (i3 g)⟩

/-- C126: over any history of calls on a map with the default policies, with any allocation failures, exchanging tables goes through at
most 72 buckets and entries per call: a single call may move every entry, a history cannot do so often. -/
theorem resize_amortised {κ : Type} {hash : κ → BitVec 64} {s : Heap} {m : Map} {M : List (Addr × κ)} {n w : Nat} {granted : Prop} (h : Costs hash granted s m M n w) :
    w ≤ 72 * n := by
  have := (all h).2.1
  omega

/-- C126: whatever allocations fail, there are never more than three entries for four buckets, but for one. -/
theorem load {κ : Type} {hash : κ → BitVec 64} {s : Heap} {m : Map} {M : List (Addr × κ)} {n w : Nat} {granted : Prop} (h : Costs hash granted s m M n w) :
    4 * (M.length - 1) ≤ 3 * m.capacity := by
  obtain ⟨Bs, hB⟩ := reach_holds (reach h)
  have := (all h).1
  rwa [hB.used] at this

/-- C126: if no request for a table of at most the present size is refused, a table of more than the smallest size is always at least a
quarter full. -/
theorem memory {κ : Type} {hash : κ → BitVec 64} {s : Heap} {m : Map} {M : List (Addr × κ)} {n w : Nat} (h : Costs hash True s m M n w) :
    m.capacity ≤ 16 ∨ m.capacity ≤ 4 * M.length := by
  obtain ⟨Bs, hB⟩ := reach_holds (reach h)
  have := (all h).2.2 trivial
  rwa [hB.used] at this

/-- A first entry: the table it needs is made, sixteen buckets. -/
example : ∃ s m, Costs (fun _ : Nat => 7) False s m [(48, 3)] 1 16 ∧ m.capacity = 16 ∧ m.used = 1 := by
  have hr : ∃ out, Op.run exOps exMalloc 5 ⟨fun _ => 0, fun _ => 0⟩ Hashmap.init (.insert 48 3 .add) = some out ∧ out.code = 0 ∧ out.node = none ∧
      0 + exchange Hashmap.init out.map = 16 ∧ out.map.capacity = 16 ∧ out.map.used = 1 := by
    refine ⟨(Op.run exOps exMalloc 5 ⟨fun _ => 0, fun _ => 0⟩ Hashmap.init (.insert 48 3 .add)).get (by decide +kernel), (Option.some_get _).symm, ?_⟩
    decide +kernel
  obtain ⟨out, e, hc, hn, hw, rest⟩ := hr
  have := Costs.call (granted := False) (s := ⟨fun _ => 0, fun _ => 0⟩) Costs.init rfl rfl (fun h => h.elim) (exOwed 48 3 .add rfl (by omega)) (fuel := 5) (by decide) (by simp) e
  rw [hc, hn, hw] at this
  exact ⟨out.heap, out.map, this, rest⟩

/-- Fourteen insertions, the last of which doubles the table, and deletions down to the first that halves it again and one more that
replaces the smallest table by another one of its size: what the exchanges go through. Each request gets a new block. -/
def exWork : Option (List (Nat × Nat × Nat)) :=
  let ops : List (Op Nat) := ((List.range 14).map fun i => .insert (16 * (i + 1)) (i + 1) .append) ++ (List.range 11).map fun i => .del (i + 1)
  (ops.foldl (fun acc op => acc.bind fun (s, m, i, l) => (Op.run exOps (fun _ => some (4096 * (i + 1))) 50 s m op).map fun out =>
    (out.heap, out.map, i + 1, if exchange m out.map = 0 then l else l ++ [(m.capacity, out.map.capacity, exchange m out.map)]))
    (some ((⟨fun _ => 0, fun _ => 0⟩ : Heap), Hashmap.init, 0, []))).map fun r => r.2.2.2

example : exWork = some [(0, 16, 16), (16, 32, 61), (32, 16, 56), (16, 16, 36)] := by decide +kernel

end Bfdev.Hashmap.Load
