import Verif.Cache.Lemmas
/-! Every operation keeps the invariant. -/
namespace Bfdev.Cache
variable {σ : Type}

theorem obtain_inv {a : Algo σ} {H : Past → σ → List Nat → Prop} {best : Past → List Nat → Nat → Prop} {cap : Nat} (P : Policy a H best cap)
    {ops : Ops} {c : Cache σ} {g : Past} {k : Nat} (h : Inv H ops c g k) (hcap : c.size ≤ cap) (hk : k + 1 < W) {tag : Nat} (change unc : Bool)
    {d : Nat} (hd : Names ops d tag) :
    ∃ r, obtain a ops c tag change unc = some r ∧
      Inv H ops (if r.2 = 0 then r.1 else { r.1 with data := upd r.1.data r.2 d }) (g.obtained c tag r.2) (k + 1) ∧
      (r.2 = 0 ∨ (In c r.2 ∧ c.status r.2 ≠ .freed ∧ c.tag r.2 = tag) ∨
        (In c r.2 ∧ Fresh c r.2 tag ∧ (∀ m, In c m → c.status m ≠ .freed → c.tag m ≠ tag) ∧ (c.status r.2 = .managed → c.freed = [] ∧
        ∃ L, (∀ m, m ∈ L ↔ In c m ∧ c.status m = .managed) ∧ best g L r.2))) := by
  unfold Cache.obtain
  by_cases hs : c.starving = true
  · rw [if_pos hs]
    refine ⟨_, rfl, ?_, Or.inl rfl⟩
    simp only [if_true, Past.obtained]
    exact h.later rfl rfl rfl rfl rfl rfl rfl rfl rfl rfl rfl rfl
  · rw [if_neg hs]
    obtain ⟨n, e1, e2⟩ := h.lookup tag true
    rw [e1, Option.bind_some]
    rcases e2 with ⟨e2, e3⟩ | ⟨e2, e3, e4, e5, -⟩
    · rw [if_neg (by simp [e2])]
      have ht : ∀ m, In c m → c.status m ≠ .freed → c.tag m ≠ tag := fun m h1 h2 h3 => by simpa using (e3 m h1 h2 h3).2
      obtain ⟨r, r1, r2, r3⟩ := miss_inv P h hcap hk change ht hd
      refine ⟨r, r1, r2, ?_⟩
      rcases r3 with r3 | ⟨r3, r4, r5⟩
      · exact Or.inl r3
      · exact Or.inr (Or.inr ⟨r3, r4, ht, r5⟩)
    · rw [if_pos e2]
      obtain ⟨r, r1, r2, r3⟩ := hit_inv P h hcap hk unc e2 e3 e4 e5 hd
      refine ⟨r, r1, r2, ?_⟩
      rcases r3 with r3 | r3
      · exact Or.inl r3
      · rw [r3]; exact Or.inr (Or.inl ⟨e3, e4, e5⟩)

theorem insert_size {ops : Ops} {c c' : Cache σ} {n : Nat} (h : insert ops c n = some c') : c'.size = c.size := by
  unfold insert at h
  obtain ⟨i, -, e⟩ := Option.map_eq_some_iff.1 h
  rw [← e]

theorem choose_size {a : Algo σ} {c : Cache σ} {r : Cache σ × Nat} (h : choose a c = some r) : r.1.size = c.size := by
  unfold choose at h
  split at h
  · obtain ⟨i, -, e⟩ := Option.map_eq_some_iff.1 h
    rw [← e]; rfl
  · cases h; rfl

theorem obtain_size {a : Algo σ} {ops : Ops} {c : Cache σ} {tag : Nat} {change unc : Bool} {r : Cache σ × Nat}
    (h : Cache.obtain a ops c tag change unc = some r) : r.1.size = c.size := by
  unfold Cache.obtain at h
  split at h
  · cases h; rfl
  · obtain ⟨n, -, h⟩ := Option.bind_eq_some_iff.1 h
    split at h
    · unfold hit at h
      dsimp only at h
      split at h
      · split at h
        · cases h; rfl
        · cases h; rfl
      · obtain ⟨s, -, e⟩ := Option.map_eq_some_iff.1 h
        rw [← e]; rfl
    · unfold miss at h
      dsimp only at h
      split at h
      · cases h; rfl
      · split at h
        · cases h; rfl
        · split at h
          · cases h; rfl
          · obtain ⟨q, e1, h⟩ := Option.bind_eq_some_iff.1 h
            obtain ⟨s, e2, e⟩ := Option.map_eq_some_iff.1 h
            rw [← e]
            unfold assign at e2
            have := choose_size e1
            exact (insert_size e2).trans this

theorem put_size {a : Algo σ} {c : Cache σ} {n : Nat} {r : Cache σ × Nat} (h : put a c n = some r) : r.1.size = c.size := by
  unfold put at h
  split at h
  · cases h; rfl
  · dsimp only at h
    split at h
    · obtain ⟨s, -, e⟩ := Option.map_eq_some_iff.1 h
      rw [← e]; rfl
    · cases h; rfl

theorem set_size {a : Algo σ} {ops : Ops} {c : Cache σ} {n tag : Nat} {r : Cache σ × Int} (h : set a ops c n tag = some r) : r.1.size = c.size := by
  unfold set at h
  split at h
  · cases h; rfl
  · obtain ⟨s, -, h⟩ := Option.bind_eq_some_iff.1 h
    obtain ⟨q, e1, h⟩ := Option.bind_eq_some_iff.1 h
    obtain ⟨s, -, e⟩ := Option.map_eq_some_iff.1 h
    have := insert_size e1
    rw [← e]; exact this

theorem del_size {a : Algo σ} {c : Cache σ} {n : Nat} {r : Cache σ × Int} (h : del a c n = some r) : r.1.size = c.size := by
  unfold del at h
  split at h
  · cases h; rfl
  · obtain ⟨s, -, e⟩ := Option.map_eq_some_iff.1 h
    rw [← e]; rfl

theorem commit_size (c : Cache σ) : (committed c).size = c.size := by
  unfold committed
  show (List.foldl commitOne c c.changing).size = _
  generalize c.changing = l
  induction l generalizing c with
  | nil => rfl
  | cons n l ih => rw [List.foldl_cons, ih]; rfl

/-- Every operation the user may call succeeds and keeps the books. -/
theorem step_inv {a : Algo σ} {H : Past → σ → List Nat → Prop} {best : Past → List Nat → Nat → Prop} {cap : Nat} (P : Policy a H best cap)
    {ops : Ops} {c : Cache σ} {g : Past} {k : Nat} (h : Inv H ops c g k) (hcap : c.size ≤ cap) (hk : k + 1 < W) (op : Op) (ho : ok ops c op) :
    ∃ c' g', step a ops c g op = some (c', g') ∧ Inv H ops c' g' (k + 1) ∧ c'.size = c.size := by
  cases op with
  | obtain tag change unc d =>
    obtain ⟨r, r1, r2, -⟩ := obtain_inv P h hcap hk change unc ho
    refine ⟨_, _, by simp only [step, r1, Option.map_some], r2, ?_⟩
    rw [← obtain_size r1]; split <;> rfl
  | put n =>
    obtain ⟨r, r1, r2, -⟩ := put_inv P h hcap hk ho
    exact ⟨_, _, by simp only [step, r1, Option.map_some], r2, put_size r1⟩
  | set n tag d =>
    obtain ⟨r, r1, -, r2, r3⟩ := set_inv P h hcap hk ho.1 ho.2.1 ho.2.2
    by_cases hm : c.status n = .managed
    · exact ⟨_, _, by simp only [step, r1, Option.map_some]; rw [if_neg (by simp [hm])], r3 hm, set_size r1⟩
    · exact ⟨_, _, by simp only [step, r1, Option.map_some]; rw [if_pos hm], r2 hm, set_size r1⟩
  | del n =>
    obtain ⟨r, r1, r2, -⟩ := del_inv P h hcap ho
    exact ⟨_, _, by simp only [step, r1, Option.map_some], r2, del_size r1⟩
  | commit => exact ⟨_, _, rfl, (commit_inv h).1, commit_size c⟩
  | fill n d => exact ⟨_, _, rfl, fill_inv h ho.1 ho.2.2, rfl⟩

theorem create_inv {H : Past → σ → List Nat → Prop} {ops : Ops} {s0 : σ} (h0 : H .none s0 []) {size : BitVec 64} {maxpend : Nat} {c : Cache σ}
    (h : create s0 size maxpend = some (some c)) : Inv H ops c .none 0 ∧ c.algo = s0 := by
  unfold create at h
  obtain ⟨sz, e1, e2⟩ := Option.map_eq_some_iff.1 h
  split at e2
  · cases e2
  · rename_i hs
    have hp : ∃ b, 1 ≤ b ∧ b ≤ 63 ∧ sz.toNat = 2 ^ b := by
      unfold Scan.pow2Roundup at e1
      split at e1
      · cases e1; omega
      · obtain ⟨b, -, e3⟩ := Option.bind_eq_some_iff.1 e1
        unfold Scan.shl1 at e3
        split at e3
        · rename_i hb
          cases e3
          have e4 : (1#64 <<< b).toNat = 2 ^ b := by
            rw [BitVec.toNat_shiftLeft, Nat.shiftLeft_eq]
            show 1 * 2 ^ b % 2 ^ 64 = _
            rw [Nat.one_mul, Nat.mod_eq_of_lt (Nat.pow_lt_pow_right (by decide) hb)]
          refine ⟨b, ?_, by omega, e4⟩
          rw [e4] at hs
          rcases b with _ | b
          · exact absurd (by decide) hs
          · omega
        · cases e3
    have rev : ∀ (l acc : List Nat), l.foldl (fun l n => n :: l) acc = l.reverse ++ acc := by
      intro l
      induction l with
      | nil => intro acc; rfl
      | cons x l ih => intro acc; rw [List.foldl_cons, ih]; simp
    cases e2
    refine ⟨⟨hp, ⟨[], h0, by simp, ?_⟩, ?_, ?_, by simp, ?_, by simp, ?_, ?_, ?_, rfl, rfl, ?_, ?_, ?_, ?_, ?_, ?_⟩, rfl⟩
    all_goals try dsimp only
    · simp
    · rw [rev, List.append_nil]; exact (List.reverse_perm _).nodup_iff.2 List.nodup_range'
    · intro n; rw [rev, List.append_nil, List.mem_reverse, List.mem_range'_1]; show _ ↔ (_ ∧ n ≤ sz.toNat) ∧ _; simp; omega
    · simp
    · simp
    · intro n _; rfl
    · intro n _; simp [Past.none]
    · simp
    · simp
    · simp
    · simp
    · simp [Past.none]
    · simp [Past.none]

theorem reach_inv {a : Algo σ} {H : Past → σ → List Nat → Prop} {best : Past → List Nat → Nat → Prop} {cap : Nat} (P : Policy a H best cap)
    {ops : Ops} {s0 : σ} (h0 : H .none s0 []) {size : BitVec 64} {maxpend : Nat}
    (hcap : ∀ c, create s0 size maxpend = some (some c) → c.size ≤ cap) {c : Cache σ} {g : Past} {k : Nat}
    (hr : Reach a ops s0 size maxpend c g k) (hk : k < W) : Inv H ops c g k ∧ c.size ≤ cap := by
  induction hr with
  | new h => exact ⟨(create_inv h0 h).1, hcap _ h⟩
  | step hr ho hs ih =>
    obtain ⟨i1, i2⟩ := ih (by omega)
    obtain ⟨c'', g'', e1, e2, e3⟩ := step_inv P i1 i2 hk _ ho
    rw [e1] at hs
    cases hs
    exact ⟨e2, by omega⟩

theorem Inv.sound {H : Past → σ → List Nat → Prop} {ops : Ops} {c : Cache σ} {g : Past} {k : Nat} (h : Inv H ops c g k) : Sound ops c g := by
  have part : ∀ (p q r : Nat → Bool), (∀ n, r n = (p n || q n)) → (∀ n, ¬ (p n = true ∧ q n = true)) →
      ∀ l : List Nat, l.countP r = l.countP p + l.countP q := by
    intro p q r h1 h2 l
    induction l with
    | nil => rfl
    | cons x l ih =>
      rw [List.countP_cons, List.countP_cons, List.countP_cons, ih, h1]
      have := h2 x
      rcases hp : p x with _ | _ <;> rcases hq : q x with _ | _ <;> simp [hp, hq] at this ⊢ <;> omega
  obtain ⟨L, l1, l2, l3⟩ := h.holds
  have nf : c.freed.length = number c (fun n => c.status n = .freed) := length_number h.fnd (fun n => by rw [h.f]; simp [In])
  have nu : c.inUse.length = number c (fun n => c.status n = .busy) := length_number h.und (fun n => by rw [h.u]; simp [In])
  have nc : c.changing.length = number c (fun n => c.status n = .pending) := length_number h.cnd (fun n => by rw [h.ch]; simp [In])
  have cong : ∀ (p q : Nat → Bool), (∀ n, In c n → p n = q n) → number c p = number c q := by
    intro p q hpq
    refine List.countP_congr fun n hn => ?_
    rw [List.mem_range'_1] at hn
    rw [hpq n ⟨by omega, by omega⟩]
  have hus : number c (fun n => c.status n = .busy) + number c (fun n => c.status n = .pending) =
      number c (fun n => decide (c.status n = .busy) || decide (c.status n = .pending)) :=
    (part _ _ _ (fun n => rfl) (fun n => by cases c.status n <;> simp) _).symm
  refine ⟨h.refcnt, h.held, h.uniq, ?_, ?_, ?_, ?_⟩
  · intro tag
    obtain ⟨n, e1, e2⟩ := h.lookup tag false
    refine ⟨n, e1, fun m hm => ?_⟩
    rcases e2 with ⟨e2, e3⟩ | ⟨e2, e3, e4, e5, e6⟩
    · constructor
      · intro e; exact absurd (e.trans e2) hm
      · rintro ⟨m1, m2, m3⟩
        have := (e3 m m1 (by rcases m2 with m2 | m2 <;> rw [m2] <;> simp) m3).1
        rcases m2 with m2 | m2 <;> rw [m2] at this <;> simp at this
    · constructor
      · intro e
        subst e
        refine ⟨e3, ?_, e5⟩
        cases hq : c.status m <;> simp_all
      · rintro ⟨m1, m2, m3⟩
        exact h.uniq m n m1 e3 (by rcases m2 with m2 | m2 <;> rw [m2] <;> simp) e4 (by rw [m3, e5])
  · rw [h.used, nu, nc, hus]
    refine cong _ _ fun n hn => ?_
    have := h.held n hn
    simp only [← Bool.decide_or, decide_eq_decide]
    exact this.symm
  · rw [h.pend, nc]
  · have e1 := part (fun n => decide (c.status n = .busy) || decide (c.status n = .pending)) (fun n => c.status n = .managed)
      (fun n => decide (c.status n ≠ .freed)) (fun n => by cases c.status n <;> simp) (fun n => by cases c.status n <;> simp) (List.range' 1 c.size)
    have e2 := part (fun n => c.status n = .freed) (fun n => decide (c.status n ≠ .freed)) (fun _ => true)
      (fun n => by cases c.status n <;> simp) (fun n => by cases c.status n <;> simp) (List.range' 1 c.size)
    have e3 : (List.range' 1 c.size).countP (fun _ => true) = c.size := by simp
    unfold number at *
    rw [h.used]
    omega

end Bfdev.Cache
