import Verif.Cache.Props
/-! C32: resetting a cache of which nothing is referenced. -/
namespace Bfdev.Cache
variable {σ : Type}

/-- An operation and what it returns to the user: the node, the references left, or the error. -/
def act (a : Algo σ) (ops : Ops) (c : Cache σ) : Op → Option (Cache σ × Int)
  | .obtain tag change unc d => (Cache.obtain a ops c tag change unc).map fun r =>
      (if r.2 = 0 then r.1 else { r.1 with data := upd r.1.data r.2 d }, (r.2 : Int))
  | .put n => (Cache.put a c n).map fun r => (r.1, (r.2 : Int))
  | .set n tag d => (Cache.set a ops c n tag).map fun r =>
      (if c.status n ≠ .managed then r.1 else { r.1 with data := upd r.1.data n d }, r.2)
  | .del n => Cache.del a c n
  | .commit => some (committed c, 0)
  | .fill n d => some ({ c with data := upd c.data n d }, 0)

/-- The results of a history. -/
def observe (a : Algo σ) (ops : Ops) : List Op → Cache σ → Option (List Int)
  | [], _ => some []
  | op :: l, c => (act a ops c op).bind fun r => (observe a ops l r.1).map (r.2 :: ·)

/-- The nodes an operation names. -/
def Op.names : Op → List Nat
  | .put n => [n]
  | .set n _ _ => [n]
  | .del n => [n]
  | .fill n _ => [n]
  | _ => []

/-- A history in which the user does what is owed and names only nodes that hold an entry, so that were handed out since the cache was new. -/
def Uses (a : Algo σ) (ops : Ops) : List Op → Cache σ → Prop
  | [], _ => True
  | op :: l, c => ok ops c op ∧ (∀ n ∈ op.names, c.status n ≠ .freed) ∧ ∀ c' v, act a ops c op = some (c', v) → Uses a ops l c'

/-! ### Nodes outside the cache -/

/-- No operation counts a hit for what is no node of the cache. -/
theorem outside {a : Algo σ} {H : Past → σ → List Nat → Prop} {best : Past → List Nat → Nat → Prop} {cap : Nat} (P : Policy a H best cap)
    {ops : Ops} {s0 : σ} (h0 : H .none s0 []) {size : BitVec 64} {maxpend : Nat}
    (hcap : ∀ c, create s0 size maxpend = some (some c) → c.size ≤ cap) {c : Cache σ} {g : Past} {k : Nat}
    (hr : Reach a ops s0 size maxpend c g k) (hk : k < W) : ∀ n, ¬ In c n → g.hits n = 0 := by
  induction hr with
  | new h => intro n _; rfl
  | @step c g k op c' g' hr ho hs ih =>
    have ih := ih (by omega)
    obtain ⟨i1, i2⟩ := reach_inv P h0 hcap hr (by omega)
    have es : c'.size = c.size := by
      obtain ⟨c'', g'', e1, -, e3⟩ := step_inv P i1 i2 hk op ho
      rw [e1] at hs; cases hs; exact e3
    intro n hn
    have hn : ¬ In c n := by rw [In, es] at hn; exact hn
    have j2 := ih n hn
    have hg : ∀ m, In c m → n ≠ m := fun m hm e => hn (e ▸ hm)
    cases op with
    | obtain tag change unc d =>
      obtain ⟨r, r1, -, r3⟩ := obtain_inv P i1 i2 hk change unc ho
      simp only [step, r1, Option.map_some, Option.some.injEq, Prod.mk.injEq] at hs
      obtain ⟨rfl, rfl⟩ := hs
      unfold Past.obtained
      by_cases hz : r.2 = 0
      · rw [if_pos hz]; exact j2
      · have hi : In c r.2 := by
          rcases r3 with h | h | h
          · exact absurd h hz
          · exact h.1
          · exact h.1
        have hne := hg _ hi
        rw [if_neg hz]
        split
        · show upd _ _ _ n = 0; rw [upd_ne _ _ hne]; exact j2
        · split
          · exact j2
          · show upd _ _ _ n = 0; rw [upd_ne _ _ hne]; exact j2
    | put m =>
      obtain ⟨r, r1, e⟩ := Option.map_eq_some_iff.1 hs
      cases e
      split
      · exact j2
      · split <;> exact j2
    | set m tag d =>
      obtain ⟨r, r1, e⟩ := Option.map_eq_some_iff.1 hs
      split at e
      · cases e; exact j2
      · cases e
        show upd _ _ _ n = 0
        rw [upd_ne _ _ (hg m ho.1)]; exact j2
    | del m => obtain ⟨r, r1, e⟩ := Option.map_eq_some_iff.1 hs; cases e; exact j2
    | commit => cases hs; exact j2
    | fill m d => cases hs; exact j2

/-! ### A cache with leftovers does what a clean one does -/

/-- `c` with other marks, tags, data, counts of changes and references. -/
def dressed (c : Cache σ) (s : Nat → Status) (t e f : Nat → Nat) (h : Nat) : Cache σ :=
  { c with status := s, tag := t, data := e, refcnt := f, changed := h }

/-- `c` is `d` but for leftovers in the nodes that hold no entry. -/
def Sim (c d : Cache σ) : Prop :=
  ∃ s t e f h, c = dressed d s t e f h ∧ (∀ n, In d n → f n = d.refcnt n) ∧ ∀ n, d.status n ≠ .freed → s n = d.status n ∧ t n = d.tag n ∧ e n = d.data n

theorem find_congr {p q : Nat → Bool} : ∀ {l : List Nat}, (∀ n ∈ l, p n = q n) → l.find? p = l.find? q
  | [], _ => rfl
  | x :: l, h => by
    rw [List.find?_cons, List.find?_cons, h x (by simp), find_congr (fun n hn => h n (List.mem_cons_of_mem _ hn))]

theorem sim_act {a : Algo σ} {H : Past → σ → List Nat → Prop} {best : Past → List Nat → Nat → Prop} {cap : Nat} (P : Policy a H best cap)
    {ops : Ops} {d : Cache σ} {g : Past} {k : Nat} (i : Inv H ops d g k) (hcap : d.size ≤ cap) (hk : k + 1 < W) {c : Cache σ} (hs : Sim c d) {op : Op}
    (ho : ok ops d op) (hn : ∀ n ∈ op.names, d.status n ≠ .freed) {d' : Cache σ} {v : Int} (hd : act a ops d op = some (d', v)) :
    ∃ c', act a ops c op = some (c', v) ∧ Sim c' d' := by
  obtain ⟨s, t, e, f, h, rfl, hf, hse⟩ := hs
  cases op with
  | commit =>
    cases hd
    refine ⟨_, rfl, ?_⟩
    have key : ∀ (l : List Nat) (d : Cache σ) s t e f h, (∀ n, In d n → f n = d.refcnt n) →
        (∀ n, d.status n ≠ .freed → s n = d.status n ∧ t n = d.tag n ∧ e n = d.data n) → (∀ n ∈ l, d.status n ≠ .freed) →
        Sim (l.foldl commitOne (dressed d s t e f h)) (l.foldl commitOne d) := by
      intro l
      induction l with
      | nil => intro d s t e f h h1 h2 _; exact ⟨s, t, e, f, h, rfl, h1, h2⟩
      | cons x l ih =>
        intro d s t e f h h1 h2 h3
        rw [List.foldl_cons, List.foldl_cons]
        refine ih (commitOne d x) (upd s x .busy) t e f ((h + 1) % W) h1 (fun n hn => ?_) (fun n hn => ?_)
        · by_cases hx : n = x
          · subst hx
            have h4 := h2 n (h3 n (by simp))
            exact ⟨by show upd s n .busy n = upd d.status n .busy n; rw [upd_same, upd_same], h4.2⟩
          · have hn' : d.status n ≠ .freed := by
              have : upd d.status x .busy n ≠ .freed := hn
              rw [upd_ne _ _ hx] at this; exact this
            refine ⟨?_, (h2 n hn').2⟩
            show upd s x .busy n = upd d.status x .busy n
            rw [upd_ne _ _ hx, upd_ne _ _ hx]; exact (h2 n hn').1
        · show upd d.status x .busy n ≠ .freed
          by_cases hx : n = x
          · rw [hx, upd_same]; decide
          · rw [upd_ne _ _ hx]; exact h3 n (List.mem_cons_of_mem _ hn)
    obtain ⟨s', t', e', f', h', e1, e2, e3⟩ := key d.changing d s t e f h hf hse (fun n hn => by rw [((i.ch n).1 hn).2]; decide)
    exact ⟨s', t', e', f', h', by show ({ List.foldl commitOne (dressed d s t e f h) d.changing with pending := 0 } : Cache σ) = _; rw [e1]; rfl, e2, e3⟩
  | fill n x =>
    cases hd
    refine ⟨_, rfl, s, t, upd e n x, f, h, rfl, hf, fun m hm => ⟨(hse m hm).1, (hse m hm).2.1, ?_⟩⟩
    show upd e n x m = upd d.data n x m
    by_cases hx : m = n
    · rw [hx, upd_same, upd_same]
    · rw [upd_ne _ _ hx, upd_ne _ _ hx]; exact (hse m hm).2.2
  | put n =>
    have hs1 := (hse n (hn n (by simp [Op.names]))).1
    have hf1 := hf n ho
    simp only [act, put] at hd ⊢
    have e0 : (dressed d s t e f h).status n = d.status n := hs1
    by_cases hb : d.status n ≠ .busy
    · rw [if_pos hb] at hd
      rw [if_pos (by rw [e0]; exact hb)]
      cases hd
      exact ⟨_, rfl, s, t, e, f, h, rfl, hf, hse⟩
    · rw [if_neg hb] at hd
      rw [if_neg (by rw [e0]; exact hb)]
      have hb : d.status n = .busy := Decidable.not_not.1 hb
      dsimp only [dressed, unlink] at hd ⊢
      simp only [upd_same] at hd
      simp only [upd_same, hf1]
      have hf' : ∀ m, In d m → upd f n ((d.refcnt n + W - 1) % W) m = upd d.refcnt n ((d.refcnt n + W - 1) % W) m := by
        intro m hm
        by_cases hx : m = n
        · rw [hx, upd_same, upd_same]
        · rw [upd_ne _ _ hx, upd_ne _ _ hx]; exact hf m hm
      by_cases hz : (d.refcnt n + W - 1) % W = 0
      · rw [if_pos hz] at hd ⊢
        cases hp : a.put d.algo n with
        | none => rw [hp] at hd; cases hd
        | some s' =>
          rw [hp] at hd
          simp only [Option.map_some, Option.some.injEq, Prod.mk.injEq] at hd ⊢
          obtain ⟨rfl, rfl⟩ := hd
          refine ⟨_, ⟨rfl, rfl⟩, upd s n .managed, t, e, _, h, rfl, hf', fun m hm => ?_⟩
          by_cases hx : m = n
          · subst hx
            have := hse m (by rw [hb]; decide)
            exact ⟨by show upd s m _ m = upd _ m _ m; rw [upd_same, upd_same], this.2⟩
          · have hm : upd d.status n .managed m ≠ .freed := hm
            rw [upd_ne _ _ hx] at hm
            exact ⟨by show upd s n _ m = upd _ n _ m; rw [upd_ne _ _ hx, upd_ne _ _ hx]; exact (hse m hm).1, (hse m hm).2⟩
      · rw [if_neg hz] at hd ⊢
        simp only [Option.map_some, Option.some.injEq, Prod.mk.injEq] at hd ⊢
        obtain ⟨rfl, rfl⟩ := hd
        exact ⟨_, ⟨rfl, rfl⟩, s, t, e, _, h, rfl, hf', hse⟩
  | set n tag x =>
    have hs1 := (hse n (hn n (by simp [Op.names]))).1
    simp only [act, set] at hd ⊢
    have e0 : (dressed d s t e f h).status n = d.status n := hs1
    by_cases hb : d.status n ≠ .managed
    · simp only [if_pos hb] at hd
      rw [e0]
      simp only [if_pos hb]
      cases hd
      exact ⟨_, rfl, s, t, e, f, h, rfl, hf, hse⟩
    · simp only [if_neg hb] at hd
      rw [e0]
      simp only [if_neg hb]
      dsimp only [dressed, hashDel, insert] at hd ⊢
      simp only [upd_same] at hd ⊢
      cases hp : a.get d.algo n with
      | none => rw [hp] at hd; cases hd
      | some s1 =>
        rw [hp] at hd
        cases hq : Bloom.hashtblIndex (BitVec.ofNat 64 d.size) (ops.hash tag) with
        | none => rw [hq] at hd; cases hd
        | some ix =>
          rw [hq] at hd
          simp only [Option.bind_some, Option.map_some] at hd ⊢
          cases hr : a.put (a.update s1 n) n with
          | none => rw [hr] at hd; cases hd
          | some s2 =>
            rw [hr] at hd
            simp only [Option.map_some, Option.some.injEq, Prod.mk.injEq] at hd ⊢
            obtain ⟨rfl, rfl⟩ := hd
            refine ⟨_, ⟨rfl, rfl⟩, s, upd t n tag, upd e n x, f, h, rfl, hf, fun m hm => ?_⟩
            refine ⟨(hse m hm).1, ?_, ?_⟩
            · show upd t n tag m = upd d.tag n tag m
              by_cases hx : m = n
              · rw [hx, upd_same, upd_same]
              · rw [upd_ne _ _ hx, upd_ne _ _ hx]; exact (hse m hm).2.1
            · show upd e n x m = upd d.data n x m
              by_cases hx : m = n
              · rw [hx, upd_same, upd_same]
              · rw [upd_ne _ _ hx, upd_ne _ _ hx]; exact (hse m hm).2.2
  | del n =>
    have hs1 := (hse n (hn n (by simp [Op.names]))).1
    simp only [act, del] at hd ⊢
    have e0 : (dressed d s t e f h).status n = d.status n := hs1
    rw [e0]
    by_cases hb : d.status n ≠ .managed
    · rw [if_pos hb] at hd ⊢
      cases hd
      exact ⟨_, rfl, s, t, e, f, h, rfl, hf, hse⟩
    · rw [if_neg hb] at hd ⊢
      dsimp only [dressed, hashDel, unlink] at hd ⊢
      cases hp : a.get d.algo n with
      | none => rw [hp] at hd; cases hd
      | some s1 =>
        rw [hp] at hd
        simp only [Option.map_some, Option.some.injEq, Prod.mk.injEq] at hd ⊢
        obtain ⟨rfl, rfl⟩ := hd
        refine ⟨_, ⟨rfl, rfl⟩, upd s n .freed, t, e, f, h, rfl, hf, fun m hm => ?_⟩
        have hm : upd d.status n .freed m ≠ .freed := hm
        by_cases hx : m = n
        · rw [hx, upd_same] at hm; exact absurd rfl hm
        · rw [upd_ne _ _ hx] at hm
          exact ⟨by show upd s n _ m = upd _ n _ m; rw [upd_ne _ _ hx, upd_ne _ _ hx]; exact (hse m hm).1, (hse m hm).2⟩
  | obtain tag change unc x =>
    simp only [act, Cache.obtain] at hd ⊢
    have e0 : (dressed d s t e f h).starving = d.starving := rfl
    rw [e0]
    by_cases hst : d.starving = true
    · rw [if_pos hst] at hd ⊢
      cases hd
      exact ⟨_, rfl, s, t, e, f, h, rfl, hf, hse⟩
    · rw [if_neg hst] at hd ⊢
      have hlook : lookup ops (dressed d s t e f h) tag true = lookup ops d tag true := by
        unfold lookup
        have : ∀ b, ((d.bucket b).find? fun n => ops.find (e n) tag == 0) = (d.bucket b).find? fun n => ops.find (d.data n) tag == 0 := fun b =>
          find_congr fun n hn => by rw [(hse n ((i.b n b).1 hn).2.1).2.2]
        dsimp only [dressed]
        simp only [this, or_true, if_true]
      rw [hlook]
      obtain ⟨n, l1, l2⟩ := i.lookup tag true
      rw [l1, Option.bind_some] at hd ⊢
      rcases l2 with ⟨l2, -⟩ | ⟨l2, l3, l4, -, -⟩
      · rw [if_neg (by simp [l2])] at hd ⊢
        unfold miss at hd ⊢
        dsimp only [dressed] at hd ⊢
        by_cases hc : (!change) = true
        · rw [if_pos hc] at hd ⊢
          cases hd
          exact ⟨_, rfl, s, t, e, f, h, rfl, hf, hse⟩
        · rw [if_neg hc] at hd ⊢
          by_cases hv : (d.freed.isEmpty && a.starving d.algo) = true
          · rw [if_pos hv] at hd ⊢
            cases hd
            exact ⟨_, rfl, s, t, e, f, h, rfl, hf, hse⟩
          · rw [if_neg hv] at hd ⊢
            by_cases hm : d.pending ≥ d.maxpend
            · simp only [hm, if_true] at hd ⊢
              cases hd
              exact ⟨_, rfl, s, t, e, f, h, rfl, hf, hse⟩
            · simp only [hm, if_false] at hd ⊢
              obtain ⟨L, L', s1, B, n, c1, c2, -⟩ := choose_ok P i hcap (by simpa using hv)
              have c3 : n ≠ 0 := by have := c2.1; omega
              have hch : ∀ d' : Cache σ, d'.freed = d.freed → d'.algo = d.algo → d'.bucket = d.bucket →
                  choose a d' = some ({ d' with algo := s1, bucket := B }, n) := by
                intro d' h1 h2 h3
                unfold choose at c1 ⊢
                rw [h1]
                cases hfr : d.freed with
                | nil =>
                  rw [hfr] at c1
                  dsimp only at c1 ⊢
                  rw [h2]
                  cases hob : a.obtain d.algo with
                  | none => rw [hob] at c1; cases c1
                  | some q =>
                    rw [hob] at c1
                    simp only [Option.map_some, Option.some.injEq, Prod.mk.injEq, hashDel] at c1 ⊢
                    obtain ⟨c1, c4⟩ := c1
                    subst c4
                    have g1 : q.2 = s1 := congrArg Cache.algo c1
                    have g2 : (fun i => (d.bucket i).erase q.1) = B := congrArg Cache.bucket c1
                    rw [h3, g1, g2]
                    exact ⟨rfl, rfl⟩
                | cons y ys =>
                  rw [hfr] at c1
                  simp only [Option.some.injEq, Prod.mk.injEq] at c1 ⊢
                  obtain ⟨c1, c4⟩ := c1
                  subst c4
                  have g1 : d.algo = s1 := congrArg Cache.algo c1
                  have g2 : d.bucket = B := congrArg Cache.bucket c1
                  rw [← g1, ← g2, ← h2, ← h3, ← hfr, ← h1]
                  exact ⟨rfl, rfl⟩
              simp only [hch] at hd ⊢
              simp only [Option.bind_some, assign, unlink, insert, upd_same] at hd ⊢
              cases hq : Bloom.hashtblIndex (BitVec.ofNat 64 d.size) (ops.hash tag) with
              | none => rw [hq] at hd; cases hd
              | some ix =>
                rw [hq] at hd
                simp only [Option.map_some, Option.some.injEq, Prod.mk.injEq, if_neg c3] at hd ⊢
                obtain ⟨rfl, rfl⟩ := hd
                refine ⟨_, ⟨rfl, rfl⟩, upd s n .pending, upd t n tag, upd e n x, upd f n ((f n + 1) % W), h, rfl, ?_, fun m hm => ?_⟩
                · intro m hm
                  show upd f n _ m = upd d.refcnt n _ m
                  by_cases hx : m = n
                  · rw [hx, upd_same, upd_same, hf n c2]
                  · rw [upd_ne _ _ hx, upd_ne _ _ hx]; exact hf m hm
                · show upd s n _ m = upd d.status n _ m ∧ upd t n _ m = upd d.tag n _ m ∧ upd e n _ m = upd d.data n _ m
                  by_cases hx : m = n
                  · rw [hx]; simp only [upd_same, and_self]
                  · have hm : upd d.status n .pending m ≠ .freed := hm
                    rw [upd_ne _ _ hx] at hm
                    simp only [upd_ne _ _ hx]
                    exact hse m hm
      · rw [if_pos l2] at hd ⊢
        have hs1 := (hse n l4).1
        have hf1 := hf n l3
        have hf' : ∀ m, In d m → upd f n ((d.refcnt n + 1) % W) m = upd d.refcnt n ((d.refcnt n + 1) % W) m := by
          intro m hm
          by_cases hx : m = n
          · rw [hx, upd_same, upd_same]
          · rw [upd_ne _ _ hx, upd_ne _ _ hx]; exact hf m hm
        have hse' : ∀ m, d.status m ≠ .freed → s m = d.status m ∧ t m = d.tag m ∧ upd e n x m = upd d.data n x m := by
          intro m hm
          refine ⟨(hse m hm).1, (hse m hm).2.1, ?_⟩
          by_cases hx : m = n
          · rw [hx, upd_same, upd_same]
          · rw [upd_ne _ _ hx, upd_ne _ _ hx]; exact (hse m hm).2.2
        unfold hit at hd ⊢
        dsimp only [dressed, unlink] at hd ⊢
        simp only [hs1]
        by_cases hp : d.status n = .pending
        · rw [if_pos hp] at hd ⊢
          by_cases hu : (!unc) = true
          · rw [if_pos hu] at hd ⊢
            cases hd
            exact ⟨_, rfl, s, t, e, f, h, rfl, hf, hse⟩
          · rw [if_neg hu] at hd ⊢
            simp only [Option.map_some, Option.some.injEq, Prod.mk.injEq, if_neg l2, hf1] at hd ⊢
            obtain ⟨rfl, rfl⟩ := hd
            exact ⟨_, ⟨rfl, rfl⟩, s, t, upd e n x, _, h, rfl, hf', hse'⟩
        · rw [if_neg hp] at hd ⊢
          cases hq : (if d.status n = .managed then a.get d.algo n else some d.algo) with
          | none => rw [hq] at hd; cases hd
          | some s1 =>
            rw [hq] at hd
            simp only [Option.map_some, Option.some.injEq, Prod.mk.injEq, if_neg l2, hf1] at hd ⊢
            obtain ⟨rfl, rfl⟩ := hd
            refine ⟨_, ⟨rfl, rfl⟩, upd s n .busy, t, upd e n x, _, h, rfl, hf', fun m hm => ?_⟩
            have hd' : d.status m ≠ .freed := by
              by_cases hx : m = n
              · rw [hx]; exact l4
              · have hm : upd d.status n .busy m ≠ .freed := hm
                rw [upd_ne _ _ hx] at hm; exact hm
            refine ⟨?_, (hse' m hd').2⟩
            show upd s n .busy m = upd d.status n .busy m
            by_cases hx : m = n
            · rw [hx, upd_same, upd_same]
            · rw [upd_ne _ _ hx, upd_ne _ _ hx]; exact (hse m hd').1

theorem act_step {a : Algo σ} {ops : Ops} {c : Cache σ} {g g' : Past} {op : Op} {c' : Cache σ} (h : step a ops c g op = some (c', g')) :
    ∃ v, act a ops c op = some (c', v) := by
  cases op with
  | obtain tag change unc d => obtain ⟨r, r1, e⟩ := Option.map_eq_some_iff.1 h; cases e; exact ⟨r.2, by simp only [act, r1, Option.map_some]⟩
  | put m => obtain ⟨r, r1, e⟩ := Option.map_eq_some_iff.1 h; cases e; exact ⟨r.2, by simp only [act, r1, Option.map_some]⟩
  | set m tag d =>
    obtain ⟨r, r1, e⟩ := Option.map_eq_some_iff.1 h
    split at e
    · rename_i hm; cases e; exact ⟨r.2, by simp only [act, r1, Option.map_some, if_pos hm]⟩
    · rename_i hm; cases e; exact ⟨r.2, by simp only [act, r1, Option.map_some, if_neg hm]⟩
  | del m => obtain ⟨r, r1, e⟩ := Option.map_eq_some_iff.1 h; cases e; exact ⟨r.2, r1⟩
  | commit => cases h; exact ⟨_, rfl⟩
  | fill m d => cases h; exact ⟨_, rfl⟩

theorem sim_observe {a : Algo σ} {H : Past → σ → List Nat → Prop} {best : Past → List Nat → Nat → Prop} {cap : Nat} (P : Policy a H best cap)
    {ops : Ops} : ∀ (l : List Op) {d : Cache σ} {g : Past} {k : Nat} {c : Cache σ}, Inv H ops d g k → d.size ≤ cap → k + l.length < W → Sim c d →
      Uses a ops l d → ∃ r, observe a ops l d = some r ∧ observe a ops l c = some r
  | [], _, _, _, _, _, _, _, _, _ => ⟨[], rfl, rfl⟩
  | op :: l, d, g, k, c, i, hc, hk, hs, hu => by
    rw [List.length_cons] at hk
    obtain ⟨u1, u2, u3⟩ := hu
    obtain ⟨d', g', e1, e2, e3⟩ := step_inv P i hc (by omega) op u1
    obtain ⟨v, e4⟩ := act_step e1
    obtain ⟨c', e5, e6⟩ := sim_act P i hc (by omega) hs u1 u2 e4
    obtain ⟨r, r1, r2⟩ := sim_observe P l e2 (by omega) (by omega) e6 (u3 d' v e4)
    exact ⟨v :: r, by simp only [observe, e4, Option.bind_some, r1, Option.map_some], by simp only [observe, e5, Option.bind_some, r2, Option.map_some]⟩

theorem insert_maxpend {ops : Ops} {c c' : Cache σ} {n : Nat} (h : insert ops c n = some c') : c'.maxpend = c.maxpend := by
  unfold insert at h
  obtain ⟨i, -, e⟩ := Option.map_eq_some_iff.1 h
  rw [← e]

theorem obtain_maxpend {a : Algo σ} {ops : Ops} {c : Cache σ} {tag : Nat} {change unc : Bool} {r : Cache σ × Nat}
    (h : Cache.obtain a ops c tag change unc = some r) : r.1.maxpend = c.maxpend := by
  unfold Cache.obtain at h
  split at h
  · cases h; rfl
  · obtain ⟨n, -, h⟩ := Option.bind_eq_some_iff.1 h
    split at h
    · unfold hit at h
      dsimp only at h
      split at h
      · split at h
        · cases h; rfl
        · cases h; rfl
      · obtain ⟨s, -, e⟩ := Option.map_eq_some_iff.1 h
        rw [← e]; rfl
    · unfold miss at h
      dsimp only at h
      split at h
      · cases h; rfl
      · split at h
        · cases h; rfl
        · split at h
          · cases h; rfl
          · obtain ⟨q, e1, h⟩ := Option.bind_eq_some_iff.1 h
            obtain ⟨s, e2, e⟩ := Option.map_eq_some_iff.1 h
            rw [← e]
            unfold assign at e2
            refine (insert_maxpend e2).trans ?_
            show q.1.maxpend = _
            unfold choose at e1
            split at e1
            · obtain ⟨j, -, e⟩ := Option.map_eq_some_iff.1 e1
              rw [← e]; rfl
            · cases e1; rfl

theorem commit_maxpend (c : Cache σ) : (committed c).maxpend = c.maxpend := by
  unfold committed
  show (List.foldl commitOne c c.changing).maxpend = _
  generalize c.changing = l
  induction l generalizing c with
  | nil => rfl
  | cons n l ih => rw [List.foldl_cons, ih]; rfl

theorem step_maxpend {a : Algo σ} {ops : Ops} {c : Cache σ} {g g' : Past} {op : Op} {c' : Cache σ} (h : step a ops c g op = some (c', g')) :
    c'.maxpend = c.maxpend := by
  cases op with
  | obtain tag change unc d =>
    obtain ⟨r, r1, e⟩ := Option.map_eq_some_iff.1 h
    cases e
    rw [← obtain_maxpend r1]
    split <;> rfl
  | put m =>
    obtain ⟨r, r1, e⟩ := Option.map_eq_some_iff.1 h
    cases e
    unfold put at r1
    split at r1
    · cases r1; rfl
    · dsimp only at r1
      split at r1
      · obtain ⟨s, -, e⟩ := Option.map_eq_some_iff.1 r1
        rw [← e]; rfl
      · cases r1; rfl
  | set m tag d =>
    obtain ⟨r, r1, e⟩ := Option.map_eq_some_iff.1 h
    have : r.1.maxpend = c.maxpend := by
      unfold set at r1
      split at r1
      · cases r1; rfl
      · obtain ⟨s, -, h⟩ := Option.bind_eq_some_iff.1 r1
        obtain ⟨q, e1, h⟩ := Option.bind_eq_some_iff.1 h
        obtain ⟨s, -, e⟩ := Option.map_eq_some_iff.1 h
        have := insert_maxpend e1
        rw [← e]; exact this
    split at e <;> cases e <;> exact this
  | del m =>
    obtain ⟨r, r1, e⟩ := Option.map_eq_some_iff.1 h
    cases e
    unfold del at r1
    split at r1
    · cases r1; rfl
    · obtain ⟨s, -, e⟩ := Option.map_eq_some_iff.1 r1
      rw [← e]; rfl
  | commit => cases h; exact commit_maxpend c
  | fill m d => cases h; rfl

theorem reach_base {a : Algo σ} {H : Past → σ → List Nat → Prop} {best : Past → List Nat → Nat → Prop} {cap : Nat} (P : Policy a H best cap)
    {ops : Ops} {s0 : σ} (h0 : H .none s0 []) {size : BitVec 64} {maxpend : Nat}
    (hcap : ∀ c, create s0 size maxpend = some (some c) → c.size ≤ cap) {c : Cache σ} {g : Past} {k : Nat}
    (hr : Reach a ops s0 size maxpend c g k) (hk : k < W) :
    ∃ c0, create s0 size maxpend = some (some c0) ∧ c.size = c0.size ∧ c.maxpend = c0.maxpend := by
  induction hr with
  | new h => exact ⟨_, h, rfl, rfl⟩
  | @step c g k op c' g' hr ho hs ih =>
    obtain ⟨c0, h1, h2, h3⟩ := ih (by omega)
    obtain ⟨i1, i2⟩ := reach_inv P h0 hcap hr (by omega)
    obtain ⟨c'', g'', e1, -, e3⟩ := step_inv P i1 i2 hk op ho
    have := step_maxpend hs
    rw [e1] at hs
    cases hs
    exact ⟨c0, h1, e3.trans h2, this.trans h3⟩

theorem reset_starts {a : Algo σ} {s0 : σ} {cap : Nat} (hb : Builtin a s0 cap) {ops : Ops} {size : BitVec 64} {maxpend : Nat}
    (hcap : ∀ c, create s0 size maxpend = some (some c) → c.size ≤ cap) {c : Cache σ} {g : Past} {k : Nat}
    (hr : Reach a ops s0 size maxpend c g k) (hk : k < W) : Builtin a (a.reset c.algo c.size) cap := by
  cases hb with
  | lru => exact .lru cap
  | lfu fuel _ h hf hc =>
    obtain ⟨i, -⟩ := reach_inv (lfu_policy fuel cap hf hc) (lfu_start h) hcap hr hk
    obtain ⟨L, l1, -⟩ := i.holds
    have out := outside (lfu_policy fuel cap hf hc) (lfu_start h) hcap hr hk
    have e : (lfu fuel).reset c.algo c.size = ⟨Heap.init c.algo.heap, fun _ => 0⟩ := by
      show (⟨_, _⟩ : Lfu) = _
      congr 1
      funext n
      split
      · rfl
      · rename_i hn
        rw [l1.2 n]; exact out n hn
    rw [e]
    exact .lfu fuel cap c.algo.heap hf hc

/-- C32, resets: a cache of which nothing is referenced, reset after any history, answers every further history as a new cache of that size does, and no call is
undefined, as long as the user names nodes handed out since the reset only. Missing: resets while entries are referenced, see `reset_violated`; nodes handed out
before the reset, see `stale_violated`. -/
theorem reset_partial {a : Algo σ} {s0 : σ} {cap : Nat} (hb : Builtin a s0 cap) {ops : Ops} {size : BitVec 64} {maxpend : Nat}
    (hcap : ∀ c, create s0 size maxpend = some (some c) → c.size ≤ cap) {c : Cache σ} {g : Past} {k : Nat}
    (hr : Reach a ops s0 size maxpend c g k) (hk : k < 2 ^ 64) (hz : ∀ n, In c n → g.refs n = 0) :
    ∃ s d, Builtin a s cap ∧ create s size maxpend = some (some d) ∧
      ∀ l, l.length < 2 ^ 64 → Uses a ops l d → ∃ r, observe a ops l d = some r ∧ observe a ops l (reset a c) = some r := by
  have hb' := reset_starts hb hcap hr hk
  obtain ⟨H, best, P, h0⟩ := builtin_policy hb
  obtain ⟨i, hc⟩ := reach_inv P h0 hcap hr hk
  obtain ⟨c0, b1, b2, b3⟩ := reach_base P h0 hcap hr hk
  obtain ⟨H', best', P', h0'⟩ := builtin_policy hb'
  have hd : create (a.reset c.algo c.size) size maxpend = some (some { c0 with algo := a.reset c.algo c.size }) := by
    unfold create at b1 ⊢
    obtain ⟨sz, e1, e2⟩ := Option.map_eq_some_iff.1 b1
    rw [e1, Option.map_some]
    split at e2
    · cases e2
    · rename_i hs
      rw [if_neg hs]
      cases e2
      rfl
  refine ⟨_, _, hb', hd, fun l hl hu => ?_⟩
  refine sim_observe P' l (create_inv h0' hd).1 (by show c0.size ≤ cap; omega) (by rw [Nat.zero_add]; exact hl) ?_ hu
  unfold create at b1
  obtain ⟨sz, e1, e2⟩ := Option.map_eq_some_iff.1 b1
  split at e2
  · cases e2
  · cases e2
    refine ⟨c.status, c.tag, c.data, c.refcnt, c.changed, ?_, ?_, ?_⟩
    · dsimp only at b2 b3
      unfold reset dressed
      dsimp only
      rw [b2, b3]
    · intro n hn
      have hn' : In c n := by rw [In, b2]; exact hn
      show c.refcnt n = 0
      rw [i.refcnt n hn', hz n hn']
    · intro n hn; exact absurd rfl hn

/-- The history of `demo` leaves nothing referenced; after the reset, tags 7 and 8 are fetched, and the new cache gives the same answers. -/
example : (start.bind fun c => (runs lru c .none demo).bind fun r => observe lru demoOps [.obtain 7 true false 7, .obtain 5 true false 5, .commit, .put 2] (reset lru r.1)) =
    some [2, 1, 0, 0] ∧
    (start.bind fun c => observe lru demoOps [.obtain 7 true false 7, .obtain 5 true false 5, .commit, .put 2] c) = some [2, 1, 0, 0] := by
  constructor <;> decide +kernel

example (d : Cache (List Nat)) : Uses lru demoOps [.obtain 7 true false 7, .commit] d :=
  ⟨demo_names 7, by simp [Op.names], fun _ _ _ => ⟨trivial, by simp [Op.names], fun _ _ _ => trivial⟩⟩

/-- C32 fails for nodes handed out before a reset: deleting one is not refused, as it is in a new cache, but undefined. -/
theorem stale_violated : ∃ c : Cache (List Nat), create [] 2#64 2 = some (some c) ∧
    ((runs lru c .none demo).map fun r => ((del lru (reset lru r.1) 2).isNone, (del lru c 2).map (·.2))) = some (true, some (-16)) := by
  have e : (start.bind fun c => (runs lru c .none demo).map fun r => ((del lru (reset lru r.1) 2).isNone, (del lru c 2).map (·.2))) =
    some (true, some (-16)) := by decide +kernel
  obtain ⟨c, hc, e⟩ := Option.bind_eq_some_iff.1 e
  exact ⟨c, Option.join_eq_some_iff.1 hc, e⟩

end Bfdev.Cache
