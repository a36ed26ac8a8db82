import Verif.Cache.Policies
/-! C32 and C33. -/
namespace Bfdev.Cache
variable {σ : Type}

/-- The two policies as `bfdev_cache_create` starts them; `cap` is the number of nodes the loops of the heap are run for. -/
inductive Builtin : {σ : Type} → Algo σ → σ → Nat → Prop
  | lru (cap : Nat) : Builtin Cache.lru [] cap
  | lfu (fuel cap : Nat) (h : Heap.State) (hf : cap ≤ fuel) (hc : cap < W) : Builtin (Cache.lfu fuel) ⟨Heap.init h, fun _ => 0⟩ cap

theorem builtin_policy {a : Algo σ} {s0 : σ} {cap : Nat} (h : Builtin a s0 cap) :
    ∃ H best, Policy a H best cap ∧ H .none s0 [] := by
  cases h with
  | lru => exact ⟨_, _, lru_policy _, lru_start⟩
  | lfu fuel _ h hf hc => exact ⟨_, _, lfu_policy _ _ hf hc, lfu_start _⟩

/-- C32: in every history of fewer than 2^64 operations without a reset the books are right, and every further call is defined. What is
missing is reset, which leaves reference counts behind, and renaming an entry to a tag in use, see below. -/
theorem cache_sound_partial {a : Algo σ} {s0 : σ} {cap : Nat} (hb : Builtin a s0 cap) {ops : Ops} {size : BitVec 64} {maxpend : Nat}
    (hcap : ∀ c, create s0 size maxpend = some (some c) → c.size ≤ cap) {c : Cache σ} {g : Past} {k : Nat}
    (hr : Reach a ops s0 size maxpend c g k) (hk : k + 1 < 2 ^ 64) :
    Sound ops c g ∧ ∀ op, ok ops c op → ∃ c' g', step a ops c g op = some (c', g') ∧ Sound ops c' g' := by
  obtain ⟨H, best, P, h0⟩ := builtin_policy hb
  obtain ⟨i1, i2⟩ := reach_inv P h0 hcap hr (Nat.lt_of_succ_lt hk)
  refine ⟨i1.sound, fun op ho => ?_⟩
  obtain ⟨c', g', e1, e2, -⟩ := step_inv P i1 i2 hk op ho
  exact ⟨c', g', e1, e2.sound⟩

theorem insert_tag {ops : Ops} {c c' : Cache σ} {n : Nat} (h : insert ops c n = some c') : c'.tag = c.tag := by
  unfold insert at h
  obtain ⟨i, -, e⟩ := Option.map_eq_some_iff.1 h
  rw [← e]

theorem choose_tag {a : Algo σ} {c : Cache σ} {r : Cache σ × Nat} (h : choose a c = some r) : r.1.tag = c.tag := by
  unfold choose at h
  split at h
  · obtain ⟨i, -, e⟩ := Option.map_eq_some_iff.1 h
    rw [← e]; rfl
  · cases h; rfl

theorem obtain_tag {a : Algo σ} {ops : Ops} {c : Cache σ} {tag : Nat} {change unc : Bool} {r : Cache σ × Nat}
    (h : Cache.obtain a ops c tag change unc = some r) (m : Nat) : r.1.tag m = c.tag m ∨ (m = r.2 ∧ r.1.tag m = tag) := by
  unfold Cache.obtain at h
  split at h
  · cases h; exact Or.inl rfl
  · obtain ⟨n, -, h⟩ := Option.bind_eq_some_iff.1 h
    split at h
    · unfold hit at h
      dsimp only at h
      split at h
      · split at h
        · cases h; exact Or.inl rfl
        · cases h; exact Or.inl rfl
      · obtain ⟨s, -, e⟩ := Option.map_eq_some_iff.1 h
        rw [← e]; exact Or.inl rfl
    · unfold miss at h
      dsimp only at h
      split at h
      · cases h; exact Or.inl rfl
      · split at h
        · cases h; exact Or.inl rfl
        · split at h
          · cases h; exact Or.inl rfl
          · obtain ⟨q, e1, h⟩ := Option.bind_eq_some_iff.1 h
            obtain ⟨s, e2, e⟩ := Option.map_eq_some_iff.1 h
            rw [← e]
            unfold assign at e2
            have h1 := insert_tag e2
            have h2 := choose_tag e1
            have h3 : s.tag = upd q.1.tag q.2 tag := h1
            show s.tag m = _ ∨ (m = q.2 ∧ s.tag m = tag)
            rw [h3, h2]
            by_cases e : m = q.2
            · subst e; exact Or.inr ⟨rfl, upd_same _ _ _⟩
            · exact Or.inl (upd_ne _ _ e)

theorem commit_tag (c : Cache σ) : (committed c).tag = c.tag := by
  unfold committed
  show (List.foldl commitOne c c.changing).tag = _
  generalize c.changing = l
  induction l generalizing c with
  | nil => rfl
  | cons n l ih => rw [List.foldl_cons, ih]; rfl

/-- C32: whatever is called, an entry with outstanding references is not evicted, reassigned or renamed, and only giving back a reference
to that entry lowers their number. -/
theorem referenced_kept {a : Algo σ} {s0 : σ} {cap : Nat} (hb : Builtin a s0 cap) {ops : Ops} {size : BitVec 64} {maxpend : Nat}
    (hcap : ∀ c, create s0 size maxpend = some (some c) → c.size ≤ cap) {c : Cache σ} {g : Past} {k : Nat}
    (hr : Reach a ops s0 size maxpend c g k) (hk : k + 1 < 2 ^ 64) {op : Op} (ho : ok ops c op) {c' : Cache σ} {g' : Past}
    (hs : step a ops c g op = some (c', g')) {n : Nat} (hn : In c n) (hrefs : 0 < g.refs n) :
    c'.tag n = c.tag n ∧ (g.refs n ≤ g'.refs n ∨ (op = .put n ∧ g'.refs n = g.refs n - 1 ∧ c.status n = .busy)) ∧
      (0 < g'.refs n → c'.status n = .busy ∨ c'.status n = .pending) := by
  obtain ⟨H, best, P, h0⟩ := builtin_policy hb
  obtain ⟨i1, i2⟩ := reach_inv P h0 hcap hr (Nat.lt_of_succ_lt hk)
  obtain ⟨c'', g'', e1, e2, e3⟩ := step_inv P i1 i2 hk op ho
  rw [e1] at hs
  cases hs
  refine ⟨?_, ?_, (e2.held n ⟨hn.1, by rw [e3]; exact hn.2⟩).1⟩
  · have hheld := (i1.held n hn).1 hrefs
    cases op with
    | obtain tag change unc d =>
      obtain ⟨r, r1, -, r3⟩ := obtain_inv P i1 i2 hk change unc ho
      simp only [step, r1, Option.map_some, Option.some.injEq, Prod.mk.injEq] at e1
      have ht : c'.tag = r.1.tag := by rw [← e1.1]; split <;> rfl
      rw [ht]
      rcases obtain_tag r1 n with h | ⟨h1, h2⟩
      · exact h
      · have hn0 : r.2 ≠ 0 := by have := hn.1; omega
        rcases r3 with r3 | ⟨-, -, r3⟩ | ⟨-, r3, -⟩
        · exact absurd r3 hn0
        · rw [h2, h1, r3]
        · rw [← h1] at r3
          rcases r3 with r3 | ⟨r3, -⟩ <;> rw [r3] at hheld <;> simp at hheld
    | put m =>
      obtain ⟨r, r1, -⟩ := put_inv P i1 i2 hk ho
      simp only [step, r1, Option.map_some, Option.some.injEq, Prod.mk.injEq] at e1
      rw [← e1.1]
      unfold put at r1
      split at r1
      · cases r1; rfl
      · dsimp only at r1
        split at r1
        · obtain ⟨s, -, e⟩ := Option.map_eq_some_iff.1 r1
          rw [← e]; rfl
        · cases r1; rfl
    | set m tag d =>
      obtain ⟨r, r1, -⟩ := set_inv P i1 i2 hk ho.1 ho.2.1 ho.2.2
      simp only [step, r1, Option.map_some, Option.some.injEq] at e1
      unfold set at r1
      by_cases hm : c.status m = .managed
      · rw [if_neg (by simp [hm])] at e1 r1
        obtain ⟨s, -, r1⟩ := Option.bind_eq_some_iff.1 r1
        obtain ⟨q, q1, r1⟩ := Option.bind_eq_some_iff.1 r1
        obtain ⟨s, -, e⟩ := Option.map_eq_some_iff.1 r1
        have : c'.tag = q.tag := by cases e1; cases e; rfl
        rw [this, insert_tag q1]
        refine upd_ne _ _ fun e => ?_
        subst e
        rw [hm] at hheld
        simp at hheld
      · rw [if_pos hm] at e1 r1
        cases r1; cases e1; rfl
    | del m =>
      obtain ⟨r, r1, -⟩ := del_inv P i1 i2 ho
      simp only [step, r1, Option.map_some, Option.some.injEq, Prod.mk.injEq] at e1
      rw [← e1.1]
      unfold del at r1
      split at r1
      · cases r1; rfl
      · obtain ⟨s, -, e⟩ := Option.map_eq_some_iff.1 r1
        rw [← e]; rfl
    | commit => cases e1; rw [commit_tag]
    | fill m d => cases e1; rfl
  · have hheld := (i1.held n hn).1 hrefs
    cases op with
    | obtain tag change unc d =>
      left
      obtain ⟨r, r1, -, r3⟩ := obtain_inv P i1 i2 hk change unc ho
      simp only [step, r1, Option.map_some, Option.some.injEq, Prod.mk.injEq] at e1
      rw [← e1.2]
      have key : g.refs n ≤ (g.ref r.2).refs n := by
        show _ ≤ upd g.refs r.2 (g.refs r.2 + 1) n
        by_cases e : n = r.2
        · subst e; rw [upd_same]; omega
        · rw [upd_ne _ _ e]; exact Nat.le_refl _
      unfold Past.obtained
      split
      · exact Nat.le_refl _
      · split
        · exact key
        · split <;> exact key
    | put m =>
      obtain ⟨r, r1, -⟩ := put_inv P i1 i2 hk ho
      simp only [step, r1, Option.map_some, Option.some.injEq, Prod.mk.injEq] at e1
      rw [← e1.2]
      by_cases hm : c.status m = .busy
      · rw [if_neg (by simp [hm])]
        have key : g.refs n ≤ (g.unref m).refs n ∨ (Op.put m = .put n ∧ (g.unref m).refs n = g.refs n - 1 ∧ c.status n = .busy) := by
          show _ ≤ upd g.refs m (g.refs m - 1) n ∨ _ ∧ upd g.refs m (g.refs m - 1) n = _ ∧ _
          by_cases e : n = m
          · subst e; right; exact ⟨rfl, upd_same _ _ _, hm⟩
          · rw [upd_ne _ _ e]; exact Or.inl (Nat.le_refl _)
        split <;> exact key
      · rw [if_pos hm]; exact Or.inl (Nat.le_refl _)
    | set m tag d =>
      left
      obtain ⟨r, r1, -⟩ := set_inv P i1 i2 hk ho.1 ho.2.1 ho.2.2
      simp only [step, r1, Option.map_some, Option.some.injEq] at e1
      split at e1 <;> cases e1 <;> exact Nat.le_refl _
    | del m =>
      left
      obtain ⟨r, r1, -⟩ := del_inv P i1 i2 ho
      simp only [step, r1, Option.map_some, Option.some.injEq, Prod.mk.injEq] at e1
      rw [← e1.2]; exact Nat.le_refl _
    | commit => cases e1; exact Or.inl (Nat.le_refl _)
    | fill m d => cases e1; exact Or.inl (Nat.le_refl _)

/-- C32: once a call found no node to give, every call is refused until a reference is returned, and only the number of refused calls changes. -/
theorem obtain_starving {a : Algo σ} {ops : Ops} {c : Cache σ} (hst : c.starving = true) (hn : c.starve + 1 < 2 ^ 64) (tag : Nat) (change unc : Bool) :
    ∃ c', Cache.obtain a ops c tag change unc = some (c', 0) ∧ c'.starve = c.starve + 1 ∧ { c' with starve := c.starve } = c := by
  unfold Cache.obtain
  rw [if_pos hst]
  exact ⟨_, rfl, Nat.mod_eq_of_lt hn, rfl⟩

/-- C32: which node `obtain` returns and when it refuses, outside starvation: the resident node that carries the tag, else a node without
references. -/
theorem obtain_result {a : Algo σ} {s0 : σ} {cap : Nat} (hb : Builtin a s0 cap) {ops : Ops} {size : BitVec 64} {maxpend : Nat}
    (hcap : ∀ c, create s0 size maxpend = some (some c) → c.size ≤ cap) {c : Cache σ} {g : Past} {k : Nat}
    (hr : Reach a ops s0 size maxpend c g k) (hk : k + 1 < 2 ^ 64) {tag d : Nat} {change unc : Bool} (hd : Names ops d tag)
    (hst : c.starving = false) :
    ∃ c' n, Cache.obtain a ops c tag change unc = some (c', n) ∧
      ((∃ m, In c m ∧ c.status m ≠ .freed ∧ c.tag m = tag ∧ n = if c.status m = .pending ∧ unc = false then 0 else m) ∨
       ((∀ m, In c m → c.status m ≠ .freed → c.tag m ≠ tag) ∧
         (n = 0 ↔ change = false ∨ (∀ m, In c m → 0 < g.refs m) ∨ c.maxpend ≤ c.pending) ∧
         (n ≠ 0 → In c n ∧ g.refs n = 0 ∧ c'.tag n = tag ∧ c'.status n = .pending ∧ c'.refcnt n = 1))) := by
  obtain ⟨H, best, P, h0⟩ := builtin_policy hb
  obtain ⟨h, hc⟩ := reach_inv P h0 hcap hr (Nat.lt_of_succ_lt hk)
  unfold Cache.obtain
  rw [if_neg (by simp [hst])]
  obtain ⟨n, e1, e2⟩ := h.lookup tag true
  rw [e1, Option.bind_some]
  rcases e2 with ⟨e2, e3⟩ | ⟨e2, e3, e4, e5, -⟩
  · rw [if_neg (by simp [e2])]
    have ht : ∀ m, In c m → c.status m ≠ .freed → c.tag m ≠ tag := fun m h1 h2 h3 => by simpa using (e3 m h1 h2 h3).2
    have un : ∀ m, In c m → ((c.status m = .freed ∨ c.status m = .managed) ↔ g.refs m = 0) := by
      intro m h1
      have h2 := h.held m h1
      constructor
      · intro e; rcases e with e | e <;> rw [e] at h2 <;> simp at h2 <;> exact h2
      · intro e; rw [e] at h2; simp at h2; cases hq : c.status m <;> simp_all
    unfold miss
    dsimp only
    cases change with
    | false => exact ⟨_, _, rfl, Or.inr ⟨ht, by simp, by simp⟩⟩
    | true =>
      simp only [Bool.not_true, Bool.false_eq_true, if_false]
      rcases hs : (c.freed.isEmpty && a.starving c.algo) with _ | _
      · simp only [Bool.false_eq_true, if_false]
        by_cases hp : c.pending ≥ c.maxpend
        · rw [if_pos hp]
          exact ⟨_, _, rfl, Or.inr ⟨ht, by simp [hp], by simp⟩⟩
        · rw [if_neg hp]
          have h' : Inv H ops { c with misses := (c.misses + 1) % W, dirty := true } g k :=
            ⟨h.size, h.holds, h.fnd, h.f, h.und, h.u, h.cnd, h.ch, h.refcnt, h.held, h.used, h.pend, h.bnd, h.b, h.names, h.uniq, h.rb, h.hb⟩
          obtain ⟨L, L', s, B, n, e1, hn, l3, e2, e3, e4, e5, e6⟩ := choose_ok P h' hc hs
          rw [e1]
          simp only [Option.bind_some]
          obtain ⟨i1, -⟩ := h.slot (ops.hash tag)
          unfold assign insert unlink
          dsimp only
          rw [upd_same, i1]
          have hn : In c n := hn
          have hn0 : n ≠ 0 := by have := hn.1; omega
          have hz : g.refs n = 0 := (un n hn).1 (by rcases e6 with e6 | e6; exact Or.inl e6; exact Or.inr e6.1)
          refine ⟨_, _, rfl, Or.inr ⟨ht, ?_, fun _ => ⟨hn, hz, upd_same _ _ _, upd_same _ _ _, ?_⟩⟩⟩
          · refine ⟨fun e => absurd e hn0, fun e => ?_⟩
            rcases e with e | e | e
            · cases e
            · have := e n hn; omega
            · exact absurd e hp
          · show upd c.refcnt n ((c.refcnt n + 1) % W) n = 1
            rw [upd_same, h.refcnt n hn, hz]; exact Nat.mod_eq_of_lt (by decide)
      · simp only [if_true]
        refine ⟨_, _, rfl, Or.inr ⟨ht, ?_, fun e => absurd rfl e⟩⟩
        simp only [Bool.and_eq_true, List.isEmpty_iff] at hs
        obtain ⟨L, l1, l2, l3⟩ := h.holds
        have hL := (P.starving l1).1 hs.2
        simp only [true_iff]
        refine Or.inr (Or.inl fun m hm => ?_)
        refine Nat.pos_of_ne_zero fun e => ?_
        rcases (un m hm).2 e with e | e
        · have := (h.f m).2 ⟨hm, e⟩; rw [hs.1] at this; cases this
        · have := (l3 m).2 ⟨hm, e⟩; rw [hL] at this; cases this
  · rw [if_pos e2]
    obtain ⟨r, r1, -⟩ := hit_inv P h hc hk unc e2 e3 e4 e5 hd
    refine ⟨r.1, r.2, r1, Or.inl ⟨n, e3, e4, e5, ?_⟩⟩
    unfold hit at r1
    dsimp only at r1
    split at r1
    · rename_i hp
      split at r1
      · rename_i hu
        cases r1
        rw [if_pos ⟨hp, by simpa using hu⟩]
      · rename_i hu
        cases r1
        rw [if_neg (fun hh => hu (by simp [hh.2]))]
    · rename_i hp
      obtain ⟨s, -, e⟩ := Option.map_eq_some_iff.1 r1
      rw [← e]
      exact (if_neg (fun hh : c.status n = .pending ∧ unc = false => hp hh.1)).symm

/-- What the policy evicts: `obtain` hands out the node of another tag only when no node is free. -/
theorem evicts {a : Algo σ} {H : Past → σ → List Nat → Prop} {best : Past → List Nat → Nat → Prop} {cap : Nat} (P : Policy a H best cap)
    {ops : Ops} {s0 : σ} (h0 : H .none s0 []) {size : BitVec 64} {maxpend : Nat}
    (hcap : ∀ c, create s0 size maxpend = some (some c) → c.size ≤ cap) {c : Cache σ} {g : Past} {k : Nat}
    (hr : Reach a ops s0 size maxpend c g k) (hk : k + 1 < W) {tag d : Nat} {change unc : Bool} (hd : Names ops d tag)
    {c' : Cache σ} {n : Nat} (ho : Cache.obtain a ops c tag change unc = some (c', n)) (hn : n ≠ 0) (he : c.status n ≠ .freed ∧ c.tag n ≠ tag) :
    In c n ∧ g.refs n = 0 ∧ (∀ m, In c m → c.status m ≠ .freed) ∧ ∃ L, (∀ m, m ∈ L ↔ In c m ∧ g.refs m = 0) ∧ best g L n := by
  obtain ⟨i1, i2⟩ := reach_inv P h0 hcap hr (Nat.lt_of_succ_lt hk)
  obtain ⟨r, r1, -, r3⟩ := obtain_inv P i1 i2 hk change unc hd
  rw [r1] at ho
  cases ho
  rcases r3 with r3 | ⟨-, -, r3⟩ | ⟨r3, r4, -, r5⟩
  · exact absurd r3 hn
  · exact absurd r3 he.2
  · have hm : c.status n = .managed := by
      rcases r4 with r4 | r4
      · exact absurd r4 he.1
      · exact r4.1
    obtain ⟨hf, L, l1, l2⟩ := r5 hm
    have hfree : ∀ m, In c m → c.status m ≠ .freed := fun m h1 h2 => by
      have := (i1.f m).2 ⟨h1, h2⟩
      rw [hf] at this
      cases this
    have un : ∀ m, In c m → (c.status m = .managed ↔ g.refs m = 0) := by
      intro m h1
      have h2 := i1.held m h1
      have h3 := hfree m h1
      constructor
      · intro e; rw [e] at h2; simp at h2; exact h2
      · intro e; rw [e] at h2; simp at h2; cases hq : c.status m <;> simp_all
    refine ⟨r3, (un n r3).1 hm, hfree, L, fun m => ?_, l2⟩
    rw [l1]
    constructor
    · rintro ⟨h1, h2⟩; exact ⟨h1, (un m h1).1 h2⟩
    · rintro ⟨h1, h2⟩; exact ⟨h1, (un m h1).2 h2⟩

/-- C33: least recently used, in histories without a reset. When an entry is evicted no node is free, the entry is not referenced, and every other unreferenced entry was
released (or renamed) after it. -/
theorem lru_victim_partial {ops : Ops} {size : BitVec 64} {maxpend : Nat} {c : Cache (List Nat)} {g : Past} {k : Nat}
    (hr : Reach lru ops [] size maxpend c g k) (hk : k + 1 < 2 ^ 64) {tag d : Nat} {change unc : Bool} (hd : Names ops d tag)
    {c' : Cache (List Nat)} {n : Nat} (ho : Cache.obtain lru ops c tag change unc = some (c', n)) (hn : n ≠ 0)
    (he : c.status n ≠ .freed ∧ c.tag n ≠ tag) :
    In c n ∧ g.refs n = 0 ∧ (∀ m, In c m → c.status m ≠ .freed) ∧ ∀ m, In c m → g.refs m = 0 → m ≠ n → g.stamp n < g.stamp m := by
  obtain ⟨h1, h2, h3, L, l1, l2⟩ := evicts (lru_policy W) lru_start (fun c hc => by
    obtain ⟨b, -, hb, e⟩ := (create_inv (H := LruHolds) (ops := ops) lru_start hc).1.size
    rw [e]
    exact Nat.pow_le_pow_right (by decide) (by omega)) hr hk hd ho hn he
  exact ⟨h1, h2, h3, fun m m1 m2 m3 => l2 m ((l1 m).2 ⟨m1, m2⟩) m3⟩

/-- C33: least frequently used, in histories without a reset. When an entry is evicted no node is free, the entry is not referenced, and no unreferenced entry was hit less
often. The loops of the heap end within as many rounds as there are entries. -/
theorem lfu_victim_partial {ops : Ops} {size : BitVec 64} {maxpend fuel : Nat} {h : Heap.State} {c : Cache Lfu} {g : Past} {k : Nat}
    (hf : ∀ c : Cache Lfu, create ⟨Heap.init h, fun _ => 0⟩ size maxpend = some (some c) → c.size ≤ fuel)
    (hr : Reach (lfu fuel) ops ⟨Heap.init h, fun _ => 0⟩ size maxpend c g k) (hk : k + 1 < 2 ^ 64) {tag d : Nat} {change unc : Bool}
    (hd : Names ops d tag) {c' : Cache Lfu} {n : Nat} (ho : Cache.obtain (lfu fuel) ops c tag change unc = some (c', n)) (hn : n ≠ 0)
    (he : c.status n ≠ .freed ∧ c.tag n ≠ tag) :
    In c n ∧ g.refs n = 0 ∧ (∀ m, In c m → c.status m ≠ .freed) ∧ ∀ m, In c m → g.refs m = 0 → g.hits n ≤ g.hits m := by
  have hb : min fuel (2 ^ 63) < W := Nat.lt_of_le_of_lt (Nat.min_le_right _ _) (by decide)
  obtain ⟨h1, h2, h3, L, l1, l2⟩ := evicts (lfu_policy fuel (min fuel (2 ^ 63)) (Nat.min_le_left _ _) hb) (lfu_start h) (fun c hc => by
    have h1 := hf c hc
    obtain ⟨b, -, hb, e⟩ := (create_inv (H := LfuHolds) (ops := ops) (lfu_start h) hc).1.size
    refine Nat.le_min.2 ⟨h1, ?_⟩
    rw [e]
    exact Nat.pow_le_pow_right (by decide) (by omega)) hr hk hd ho hn he
  exact ⟨h1, h2, h3, fun m m1 m2 => l2 m ((l1 m).2 ⟨m1, m2⟩)⟩

/-- C32: what giving back a reference returns: the number of references left. -/
theorem put_result {a : Algo σ} {s0 : σ} {cap : Nat} (hb : Builtin a s0 cap) {ops : Ops} {size : BitVec 64} {maxpend : Nat}
    (hcap : ∀ c, create s0 size maxpend = some (some c) → c.size ≤ cap) {c : Cache σ} {g : Past} {k : Nat}
    (hr : Reach a ops s0 size maxpend c g k) (hk : k + 1 < 2 ^ 64) {n : Nat} (hn : In c n) :
    ∃ c', put a c n = some (c', if c.status n = .busy then g.refs n - 1 else 2 ^ 64 - 22) := by
  obtain ⟨H, best, P, h0⟩ := builtin_policy hb
  obtain ⟨i1, i2⟩ := reach_inv P h0 hcap hr (Nat.lt_of_succ_lt hk)
  obtain ⟨r, r1, -, r3⟩ := put_inv P i1 i2 hk hn
  refine ⟨r.1, ?_⟩
  rw [r1]
  by_cases hm : c.status n = .busy
  · rw [if_neg (by simp [hm])] at r3
    rw [if_pos hm, ← r3]
  · rw [if_pos hm] at r3
    rw [if_neg hm, ← r3]

/-- C32: only an unreferenced resident entry can be removed or renamed, any other is refused with EBUSY and unchanged. -/
theorem remove_result {a : Algo σ} {s0 : σ} {cap : Nat} (hb : Builtin a s0 cap) {ops : Ops} {size : BitVec 64} {maxpend : Nat}
    (hcap : ∀ c, create s0 size maxpend = some (some c) → c.size ≤ cap) {c : Cache σ} {g : Past} {k : Nat}
    (hr : Reach a ops s0 size maxpend c g k) (hk : k + 1 < 2 ^ 64) {n : Nat} (hn : In c n) :
    (c.status n ≠ .managed → del a c n = some (c, -16) ∧ ∀ tag, set a ops c n tag = some (c, -16)) ∧
    (c.status n = .managed → ∃ c', del a c n = some (c', 0) ∧ c'.status n = .freed) := by
  obtain ⟨H, best, P, h0⟩ := builtin_policy hb
  obtain ⟨i1, i2⟩ := reach_inv P h0 hcap hr (Nat.lt_of_succ_lt hk)
  constructor
  · intro h
    unfold del set
    simp only [if_pos h]
    exact ⟨trivial, fun _ => trivial⟩
  · intro h
    obtain ⟨r, r1, -, r3⟩ := del_inv P i1 i2 hn
    rw [if_neg (by simp [h])] at r3
    refine ⟨r.1, by rw [r1, ← r3], ?_⟩
    unfold del at r1
    rw [if_neg (by simp [h])] at r1
    obtain ⟨s, -, e⟩ := Option.map_eq_some_iff.1 r1
    rw [← e]; exact upd_same _ _ _

/-! ### Concrete caches -/

/-- Data is the tag itself. -/
def demoOps : Ops := ⟨fun t => BitVec.ofNat 64 t, fun d t => (d : Int) - t⟩

theorem demo_names (t : Nat) : Names demoOps t t := by intro t'; simp only [demoOps]; omega

def runs (a : Algo σ) (c : Cache σ) (g : Past) : List Op → Option (Cache σ × Past)
  | [] => some (c, g)
  | op :: l => (step a demoOps c g op).bind fun r => runs a r.1 r.2 l

/-- Two tags fetched and released, the first used again. -/
def demo : List Op := [.obtain 5 true false 5, .obtain 6 true false 6, .commit, .put 2, .put 1, .obtain 5 true false 5, .put 2]

/-- What is seen of a cache with two nodes. -/
def view (c : Cache σ) : List (Status × Nat × Nat) := [1, 2].map fun n => (c.status n, c.tag n, c.refcnt n)

def start : Option (Cache (List Nat)) := (create [] 2#64 2).join

example : (start.bind fun c => runs lru c .none demo).map (fun r => (view r.1, r.1.used, r.1.hits, r.1.misses)) =
    some ([(.managed, 6, 0), (.managed, 5, 0)], 0, 1, 2) := by decide +kernel

/-- Tag 6 was released before tag 5, so tag 7 takes its place. -/
example : ((start.bind fun c => runs lru c .none demo).bind fun r => (Cache.obtain lru demoOps r.1 7 true false).map fun q => (q.2, view q.1)) =
    some (1, [(.pending, 7, 1), (.managed, 5, 0)]) := by decide +kernel

def start2 : Option (Cache Lfu) := (create ⟨Heap.init Heap.zeroMem, fun _ => 0⟩ 2#64 2).join

/-- Tag 6 was hit less often than tag 5, so tag 7 takes its place. -/
example : ((start2.bind fun c => runs (lfu 2) c .none demo).bind fun r => (Cache.obtain (lfu 2) demoOps r.1 7 true false).map fun q => (q.2, view q.1)) =
    some (1, [(.pending, 7, 1), (.managed, 5, 0)]) := by decide +kernel

/-- The demo is a history the theorems speak of. -/
example : ∃ c g, Reach lru demoOps [] 2#64 2 c g 2 ∧ g.refs 1 = 1 ∧ g.refs 2 = 1 := by
  have e : start.isSome = true := by decide +kernel
  obtain ⟨c, hc⟩ := Option.isSome_iff_exists.1 e
  have hc' : create ([] : List Nat) 2#64 2 = some (some c) := by
    unfold start at hc
    exact Option.join_eq_some_iff.1 hc
  have e2 : (start.bind fun c => (step lru demoOps c .none (.obtain 5 true false 5)).bind fun r => (step lru demoOps r.1 r.2 (.obtain 6 true false 6)).map
      fun r => (r.2.refs 1, r.2.refs 2)) = some (1, 1) := by decide +kernel
  rw [hc, Option.bind_some] at e2
  obtain ⟨r, r1, e2⟩ := Option.bind_eq_some_iff.1 e2
  obtain ⟨q, q1, e2⟩ := Option.map_eq_some_iff.1 e2
  refine ⟨q.1, q.2, .step (op := .obtain 6 true false 6) (.step (op := .obtain 5 true false 5) (.new hc') (demo_names 5) r1) (demo_names 6) q1, ?_, ?_⟩
  · exact congrArg Prod.fst e2
  · exact congrArg Prod.snd e2

/-! ### Disagreements -/

/-- C32 fails after a reset: one reference is taken before it and one after, and giving back the one that was taken after the reset does not
release the entry, because the reset left the old count. -/
theorem reset_violated : ∃ c : Cache (List Nat), create [] 2#64 2 = some (some c) ∧
    ((runs lru c .none [.obtain 5 true false 5, .obtain 6 true false 6, .commit]).bind fun r =>
      (runs lru (reset lru r.1) .none [.obtain 7 true false 7, .commit]).bind fun r => (put lru r.1 2).map fun q => (r.1.tag 2, r.2.refs 2, q.2)) =
    some (7, 1, 1) := by
  have e : (start.bind fun c => (runs lru c .none [.obtain 5 true false 5, .obtain 6 true false 6, .commit]).bind fun r =>
      (runs lru (reset lru r.1) .none [.obtain 7 true false 7, .commit]).bind fun r => (put lru r.1 2).map fun q => (r.1.tag 2, r.2.refs 2, q.2)) =
    some (7, 1, 1) := by decide +kernel
  obtain ⟨c, hc, e⟩ := Option.bind_eq_some_iff.1 e
  exact ⟨c, Option.join_eq_some_iff.1 hc, e⟩

/-- C32 fails when an entry is renamed to a tag that is resident: `bfdev_cache_set` succeeds and two entries carry the tag. -/
theorem rename_violated : ∃ c : Cache (List Nat), create [] 2#64 2 = some (some c) ∧
    ((runs lru c .none [.obtain 5 true false 5, .obtain 6 true false 6, .commit, .put 1, .put 2]).bind fun r =>
      (set lru demoOps r.1 1 5).map fun q => (q.2, view q.1)) =
    some (0, [(.managed, 5, 0), (.managed, 5, 0)]) := by
  have e : (start.bind fun c => (runs lru c .none [.obtain 5 true false 5, .obtain 6 true false 6, .commit, .put 1, .put 2]).bind fun r =>
      (set lru demoOps r.1 1 5).map fun q => (q.2, view q.1)) =
    some (0, [(.managed, 5, 0), (.managed, 5, 0)]) := by decide +kernel
  obtain ⟨c, hc, e⟩ := Option.bind_eq_some_iff.1 e
  exact ⟨c, Option.join_eq_some_iff.1 hc, e⟩

end Bfdev.Cache
