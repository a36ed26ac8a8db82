import Verif.Cache.Spec
import Verif.Hashmap.Lemmas
/-! The invariant of the cache. -/
namespace Bfdev.Cache
open Bfdev.Hashmap (slot slot_ok ilog2_pow)
variable {σ : Type}

theorem upd_same {α : Type} (f : Nat → α) (n : Nat) (v : α) : upd f n v n = v := if_pos rfl
theorem upd_ne {α : Type} (f : Nat → α) {n m : Nat} (v : α) (h : m ≠ n) : upd f n v m = f m := if_neg h

/-- What a policy guarantees: `H g s L` says that `s` holds the nodes `L` given the past `g`; `best g L n` says that `n` may be evicted. -/
structure Policy (a : Algo σ) (H : Past → σ → List Nat → Prop) (best : Past → List Nat → Nat → Prop) (cap : Nat) : Prop where
  starving : ∀ {g s L}, H g s L → (a.starving s = true ↔ L = [])
  obtain : ∀ {g s L}, H g s L → L.Nodup → L ≠ [] → L.length ≤ cap →
    ∃ n s', a.obtain s = some (n, s') ∧ n ∈ L ∧ H g s' (L.erase n) ∧ best g L n
  get : ∀ {g s L n}, H g s L → L.Nodup → n ∈ L → L.length ≤ cap → ∃ s', a.get s n = some s' ∧ H g s' (L.erase n)
  put : ∀ {g s L n}, H g s L → n ≠ 0 → n ∉ L → L.length + 1 ≤ cap → ∃ s', a.put s n = some s' ∧ H (g.release n) s' (n :: L)
  update : ∀ {g s L n}, H g s L → n ∉ L → g.hits n + 1 < W → H (g.hit n) (a.update s n) L
  clear : ∀ {g s L n}, H g s L → n ∉ L → H (g.fresh n) (a.clear s n) L
  refs : ∀ {g s L} r, H g s L → H { g with refs := r } s L

structure Inv (H : Past → σ → List Nat → Prop) (ops : Ops) (c : Cache σ) (g : Past) (k : Nat) : Prop where
  size : ∃ b, 1 ≤ b ∧ b ≤ 63 ∧ c.size = 2 ^ b
  holds : ∃ L, H g c.algo L ∧ L.Nodup ∧ ∀ n, n ∈ L ↔ In c n ∧ c.status n = .managed
  fnd : c.freed.Nodup
  f : ∀ n, n ∈ c.freed ↔ In c n ∧ c.status n = .freed
  und : c.inUse.Nodup
  u : ∀ n, n ∈ c.inUse ↔ In c n ∧ c.status n = .busy
  cnd : c.changing.Nodup
  ch : ∀ n, n ∈ c.changing ↔ In c n ∧ c.status n = .pending
  refcnt : ∀ n, In c n → c.refcnt n = g.refs n
  held : ∀ n, In c n → (0 < g.refs n ↔ c.status n = .busy ∨ c.status n = .pending)
  used : c.used = c.inUse.length + c.changing.length
  pend : c.pending = c.changing.length
  bnd : ∀ i, (c.bucket i).Nodup
  b : ∀ n i, n ∈ c.bucket i ↔ In c n ∧ c.status n ≠ .freed ∧ i = slot c.size (ops.hash (c.tag n))
  names : ∀ n, In c n → c.status n ≠ .freed → Names ops (c.data n) (c.tag n)
  uniq : ∀ n m, In c n → In c m → c.status n ≠ .freed → c.status m ≠ .freed → c.tag n = c.tag m → n = m
  rb : ∀ n, g.refs n ≤ k
  hb : ∀ n, g.hits n ≤ k

theorem length_number {l : List Nat} {s : Nat} {p : Nat → Bool} (hd : l.Nodup) (hm : ∀ n, n ∈ l ↔ (1 ≤ n ∧ n ≤ s) ∧ p n = true) :
    l.length = (List.range' 1 s).countP p := by
  rw [List.countP_eq_length_filter]
  refine List.Perm.length_eq ((List.perm_ext_iff_of_nodup hd (List.Pairwise.filter p List.nodup_range')).2 fun n => ?_)
  rw [hm, List.mem_filter, List.mem_range'_1]
  constructor
  · rintro ⟨h1, h2⟩; exact ⟨by omega, h2⟩
  · rintro ⟨h1, h2⟩; exact ⟨by omega, h2⟩

theorem length_le {l : List Nat} {s : Nat} (hd : l.Nodup) (hm : ∀ n ∈ l, 1 ≤ n ∧ n ≤ s) : l.length ≤ s := by
  rw [length_number (p := fun n => l.contains n) hd (fun n => by simp; exact hm n)]
  calc _ ≤ (List.range' 1 s).length := List.countP_le_length
    _ = s := by simp

theorem Inv.bounds {H : Past → σ → List Nat → Prop} {ops : Ops} {c : Cache σ} {g : Past} {k : Nat} (h : Inv H ops c g k) :
    c.size < W ∧ c.inUse.length + c.changing.length ≤ c.size ∧
      ((∃ n, In c n ∧ (c.status n = .freed ∨ c.status n = .managed)) → c.inUse.length + c.changing.length < c.size) := by
  have hnd : (c.inUse ++ c.changing).Nodup := by
    refine List.nodup_append.2 ⟨h.und, h.cnd, fun x hx y hy e => ?_⟩
    subst e
    have h1 := (h.u x).1 hx
    have h2 := (h.ch x).1 hy
    rw [h1.2] at h2
    simp at h2
  have hin : ∀ n ∈ c.inUse ++ c.changing, 1 ≤ n ∧ n ≤ c.size := by
    intro n hn
    rcases List.mem_append.1 hn with hn | hn
    · exact ((h.u n).1 hn).1
    · exact ((h.ch n).1 hn).1
  refine ⟨?_, ?_, ?_⟩
  · obtain ⟨b, h1, h2, h3⟩ := h.size
    rw [h3]
    exact Nat.pow_lt_pow_right (by decide) (by omega)
  · have := length_le hnd hin
    simpa using this
  · rintro ⟨n, h1, h2⟩
    have hn : n ∉ c.inUse ++ c.changing := by
      intro hn
      rcases List.mem_append.1 hn with hn | hn
      · have := ((h.u n).1 hn).2; rw [this] at h2; simp at h2
      · have := ((h.ch n).1 hn).2; rw [this] at h2; simp at h2
    have := length_le (l := n :: (c.inUse ++ c.changing)) (s := c.size) (List.nodup_cons.2 ⟨hn, hnd⟩) (by
      intro m hm
      rcases List.mem_cons.1 hm with rfl | hm
      · exact h1
      · exact hin m hm)
    simp at this
    omega

theorem Inv.slot {H : Past → σ → List Nat → Prop} {ops : Ops} {c : Cache σ} {g : Past} {k : Nat} (h : Inv H ops c g k) (w : BitVec 64) :
    Bloom.hashtblIndex (BitVec.ofNat 64 c.size) w = some (slot c.size w) ∧ ∃ m, Hashmap.mask c.size = some m ∧ slot c.size w &&& m = slot c.size w := by
  obtain ⟨b, h1, h2, h3⟩ := h.size
  rw [h3]
  obtain ⟨e1, e2⟩ := slot_ok b h1 h2 w
  refine ⟨e1, 2 ^ b - 1, ?_, ?_⟩
  · rw [Hashmap.mask, ilog2_pow b h2]; rfl
  · rw [Nat.and_two_pow_sub_one_eq_mod, Nat.mod_eq_of_lt e2]

theorem Inv.lookup {H : Past → σ → List Nat → Prop} {ops : Ops} {c : Cache σ} {g : Past} {k : Nat} (h : Inv H ops c g k) (tag : Nat) (change : Bool) :
    ∃ r, lookup ops c tag change = some r ∧
      ((r = 0 ∧ ∀ m, In c m → c.status m ≠ .freed → c.tag m = tag → c.status m = .pending ∧ change = false) ∨
       (r ≠ 0 ∧ In c r ∧ c.status r ≠ .freed ∧ c.tag r = tag ∧ (c.status r ≠ .pending ∨ change = true))) := by
  obtain ⟨e1, m, e2, e3⟩ := h.slot (ops.hash tag)
  unfold Cache.lookup
  rw [e1, e2]
  simp only [Option.bind_some, Option.map_some]
  rw [e3]
  refine ⟨_, rfl, ?_⟩
  rcases hf : (c.bucket (Hashmap.slot c.size (ops.hash tag))).find? (fun n => ops.find (c.data n) tag == 0) with _ | n
  · left
    refine ⟨rfl, fun m h1 h2 h3 => ?_⟩
    have hm := (h.b m (Hashmap.slot c.size (ops.hash tag))).2 ⟨h1, h2, by rw [h3]⟩
    have := List.find?_eq_none.1 hf m hm
    exact absurd ((h.names m h1 h2 tag).2 h3.symm) (by simpa using this)
  · have hn := List.mem_of_find?_eq_some hf
    have hp := List.find?_some hf
    obtain ⟨h1, h2, -⟩ := (h.b n _).1 hn
    have ht : tag = c.tag n := (h.names n h1 h2 tag).1 (by simpa using hp)
    dsimp only
    by_cases hc : c.status n ≠ .pending ∨ change = true
    · right
      rw [if_pos hc]
      have := h1.1
      exact ⟨by omega, h1, h2, ht.symm, hc⟩
    · left
      rw [if_neg hc]
      refine ⟨rfl, fun m h3 h4 h5 => ?_⟩
      rw [h.uniq m n h3 h1 h4 h2 (by rw [h5, ht])]
      simpa using hc

/-- A list changes at `n` only: afterwards `n` is in it iff `p`. -/
def Upd (l l' : List Nat) (n : Nat) (p : Prop) : Prop := l'.Nodup ∧ ∀ m, m ∈ l' ↔ (m = n ∧ p) ∨ (m ≠ n ∧ m ∈ l)

theorem upd_erase {l : List Nat} (h : l.Nodup) (n : Nat) {p : Prop} (hp : ¬ p) : Upd l (l.erase n) n p :=
  ⟨h.erase n, fun m => by rw [h.mem_erase_iff]; simp [hp]⟩

theorem upd_cons {l : List Nat} (h : l.Nodup) (n : Nat) {p : Prop} (hp : p) : Upd l (n :: l.erase n) n p := by
  refine ⟨List.nodup_cons.2 ⟨fun hh => (h.mem_erase_iff.1 hh).1 rfl, h.erase n⟩, fun m => ?_⟩
  rw [List.mem_cons, h.mem_erase_iff]
  simp [hp]

theorem upd_keep {l : List Nat} (h : l.Nodup) (n : Nat) {p : Prop} (hp : n ∈ l ↔ p) : Upd l l n p := by
  refine ⟨h, fun m => ?_⟩
  by_cases e : m = n
  · subst e; simp [hp]
  · simp [e]

/-- An operation that concerns node `n` only. -/
theorem Inv.change {H : Past → σ → List Nat → Prop} {ops : Ops} {c c' : Cache σ} {g g' : Past} {k : Nat} (h : Inv H ops c g k) {n : Nat}
    (hn : In c n) (hs : c'.size = c.size)
    (hst : ∀ m, m ≠ n → c'.status m = c.status m) (htg : ∀ m, m ≠ n → c'.tag m = c.tag m) (hda : ∀ m, m ≠ n → c'.data m = c.data m)
    (hrc : ∀ m, m ≠ n → c'.refcnt m = c.refcnt m) (hre : ∀ m, m ≠ n → g'.refs m = g.refs m)
    (hH : ∃ L L', H g' c'.algo L' ∧ (∀ m, m ∈ L ↔ In c m ∧ c.status m = .managed) ∧ Upd L L' n (c'.status n = .managed))
    (hf : Upd c.freed c'.freed n (c'.status n = .freed)) (hu : Upd c.inUse c'.inUse n (c'.status n = .busy))
    (hc : Upd c.changing c'.changing n (c'.status n = .pending))
    (hb : ∀ i, Upd (c.bucket i) (c'.bucket i) n (c'.status n ≠ .freed ∧ i = Hashmap.slot c.size (ops.hash (c'.tag n))))
    (hr : c'.refcnt n = g'.refs n) (hh : 0 < g'.refs n ↔ c'.status n = .busy ∨ c'.status n = .pending)
    (hnm : c'.status n ≠ .freed → Names ops (c'.data n) (c'.tag n))
    (huq : ∀ m, m ≠ n → In c m → c.status m ≠ .freed → c'.status n ≠ .freed → c.tag m ≠ c'.tag n)
    (hus : c'.used = c'.inUse.length + c'.changing.length) (hpe : c'.pending = c'.changing.length)
    (hrb : g'.refs n ≤ k + 1) (hhb : ∀ m, g'.hits m ≤ k + 1) : Inv H ops c' g' (k + 1) := by
  have hin : ∀ m, In c' m ↔ In c m := fun m => by unfold In; rw [hs]
  have list : ∀ {l l' : List Nat} {q : Status}, (∀ m, m ∈ l ↔ In c m ∧ c.status m = q) → Upd l l' n (c'.status n = q) →
      ∀ m, m ∈ l' ↔ In c' m ∧ c'.status m = q := by
    intro l l' q h1 h2 m
    rw [h2.2, hin, h1]
    by_cases e : m = n
    · subst e; simp [hn]
    · simp [e, hst m e]
  refine ⟨by rw [hs]; exact h.size, ?_, hf.1, list h.f hf, hu.1, list h.u hu, hc.1, list h.ch hc, ?_, ?_, hus, hpe, fun i => (hb i).1, ?_, ?_, ?_, ?_, hhb⟩
  · obtain ⟨L, L', h1, h2, h3⟩ := hH
    exact ⟨L', h1, h3.1, list h2 h3⟩
  · intro m hm
    by_cases e : m = n
    · subst e; exact hr
    · rw [hrc m e, hre m e]; exact h.refcnt m ((hin m).1 hm)
  · intro m hm
    by_cases e : m = n
    · subst e; exact hh
    · rw [hre m e, hst m e]; exact h.held m ((hin m).1 hm)
  · intro m i
    rw [(hb i).2, hin, hs, h.b]
    by_cases e : m = n
    · subst e; simp [hn]
    · simp [e, hst m e, htg m e]
  · intro m hm
    by_cases e : m = n
    · subst e; exact hnm
    · rw [hst m e, htg m e, hda m e]; exact h.names m ((hin m).1 hm)
  · intro a b ha hbb ha' hb' he
    by_cases ea : a = n
    · by_cases eb : b = n
      · rw [ea, eb]
      · subst ea
        rw [hst b eb] at hb'
        rw [htg b eb] at he
        exact absurd he.symm (huq b eb ((hin b).1 hbb) hb' ha')
    · rw [hst a ea] at ha'
      rw [htg a ea] at he
      by_cases eb : b = n
      · subst eb
        exact absurd he (huq a ea ((hin a).1 ha) ha' hb')
      · rw [hst b eb] at hb'
        rw [htg b eb] at he
        exact h.uniq a b ((hin a).1 ha) ((hin b).1 hbb) ha' hb' he
  · intro m
    by_cases e : m = n
    · subst e; exact hrb
    · rw [hre m e]; exact Nat.le_succ_of_le (h.rb m)

theorem Inv.later {H : Past → σ → List Nat → Prop} {ops : Ops} {c c' : Cache σ} {g : Past} {k : Nat} (h : Inv H ops c g k)
    (h1 : c'.size = c.size) (h2 : c'.algo = c.algo) (h3 : c'.freed = c.freed) (h4 : c'.inUse = c.inUse) (h5 : c'.changing = c.changing)
    (h6 : c'.status = c.status) (h7 : c'.refcnt = c.refcnt) (h8 : c'.tag = c.tag) (h9 : c'.data = c.data) (h10 : c'.used = c.used)
    (h11 : c'.pending = c.pending) (h12 : c'.bucket = c.bucket) : Inv H ops c' g (k + 1) := by
  have hin : ∀ m, In c' m ↔ In c m := fun m => by unfold In; rw [h1]
  refine ⟨by rw [h1]; exact h.size, ?_, by rw [h3]; exact h.fnd, ?_, by rw [h4]; exact h.und, ?_, by rw [h5]; exact h.cnd, ?_, ?_, ?_, ?_, ?_, ?_, ?_, ?_, ?_, ?_, ?_⟩
  · rw [h2, h6]; simpa only [hin] using h.holds
  · rw [h3, h6]; simpa only [hin] using h.f
  · rw [h4, h6]; simpa only [hin] using h.u
  · rw [h5, h6]; simpa only [hin] using h.ch
  · rw [h7]; simpa only [hin] using h.refcnt
  · rw [h6]; simpa only [hin] using h.held
  · rw [h4, h5, h10]; exact h.used
  · rw [h5, h11]; exact h.pend
  · rw [h12]; exact h.bnd
  · rw [h12, h6, h8, h1]; simpa only [hin] using h.b
  · rw [h6, h8, h9]; simpa only [hin] using h.names
  · rw [h6, h8]; simpa only [hin] using h.uniq
  · exact fun m => Nat.le_succ_of_le (h.rb m)
  · exact fun m => Nat.le_succ_of_le (h.hb m)

/-- Length of the lists in use after node `n` joins one of them. -/
theorem len_erase {l : List Nat} {n : Nat} (h : n ∈ l) : (l.erase n).length + 1 = l.length := by
  rw [List.length_erase_of_mem h]
  have := List.length_pos_of_mem h
  omega

/-- C32, hit. -/
theorem hit_inv {a : Algo σ} {H : Past → σ → List Nat → Prop} {best : Past → List Nat → Nat → Prop} {cap : Nat} (P : Policy a H best cap)
    {ops : Ops} {c : Cache σ} {g : Past} {k : Nat} (h : Inv H ops c g k) (hcap : c.size ≤ cap) (hk : k + 1 < W) {n tag : Nat} (unc : Bool) (hn0 : n ≠ 0) (hn : In c n)
    (hs : c.status n ≠ .freed) (ht : c.tag n = tag) {d : Nat} (hd : Names ops d tag) :
    ∃ r, hit a c n unc = some r ∧ Inv H ops (if r.2 = 0 then r.1 else { r.1 with data := upd r.1.data r.2 d }) (g.obtained c tag r.2) (k + 1) ∧
      (r.2 = 0 ∨ r.2 = n) := by
  have hfr : ¬ Fresh c n tag := by rintro (hh | ⟨-, hh⟩); exact hs hh; exact hh ht
  have hrb := h.rb n
  have hhb := h.hb
  have hrc := h.refcnt n hn
  have hmod : (c.refcnt n + 1) % W = g.refs n + 1 := by rw [hrc]; exact Nat.mod_eq_of_lt (by omega)
  unfold hit
  dsimp only
  by_cases h1 : c.status n = .pending
  · rw [if_pos h1]
    cases unc with
    | false =>
      refine ⟨_, rfl, ?_, Or.inl rfl⟩
      simp only [if_true, Past.obtained]
      exact h.later rfl rfl rfl rfl rfl rfl rfl rfl rfl rfl rfl rfl
    | true =>
      refine ⟨_, rfl, ?_, Or.inr rfl⟩
      simp only [if_neg hn0, Past.obtained, if_neg hfr, if_pos h1]
      obtain ⟨L, l1, l2, l3⟩ := h.holds
      refine h.change hn rfl (fun m _ => rfl) (fun m _ => rfl) (fun m e => upd_ne _ _ e) (fun m e => upd_ne _ _ e) (fun m e => upd_ne _ _ e)
        ⟨L, L, P.refs _ l1, l3, upd_keep l2 n (by rw [l3]; simp [hn])⟩ (upd_keep h.fnd n (by rw [h.f]; simp [hn]))
        (upd_keep h.und n (by rw [h.u]; simp [hn])) (upd_keep h.cnd n (by rw [h.ch]; simp [hn]))
        (fun i => upd_keep (h.bnd i) n (by rw [h.b]; simp [hn])) ?_ ?_ ?_ ?_ h.used h.pend ?_ ?_
      · show upd _ _ _ n = upd _ _ _ n; rw [upd_same, upd_same, hmod]
      · show 0 < upd _ _ _ n ↔ _; rw [upd_same]; simp [h1]
      · intro _; show Names ops (upd _ _ _ n) _; rw [upd_same]; rw [ht]; exact hd
      · intro m e m1 m2 m3 m4; exact e (h.uniq m n m1 hn m2 m3 m4)
      · show upd _ _ _ n ≤ _; rw [upd_same]; omega
      · intro m; exact Nat.le_succ_of_le (hhb m)
  · rw [if_neg h1]
    have hfr2 : g.obtained c tag n = (g.ref n).hit n := by simp only [Past.obtained, if_neg hn0, if_neg hfr, if_neg h1]
    obtain ⟨L, l1, l2, l3⟩ := h.holds
    have hL : L.length ≤ cap := Nat.le_trans (length_le l2 (fun m hm => ((l3 m).1 hm).1)) hcap
    obtain ⟨s, e1, L', e2, e3, e4⟩ : ∃ s, (if c.status n = .managed then a.get c.algo n else some c.algo) = some s ∧ ∃ L', H g s L' ∧ n ∉ L' ∧
        Upd L L' n (Status.busy = Status.managed) := by
      by_cases h2 : c.status n = .managed
      · rw [if_pos h2]
        obtain ⟨s, e1, e2⟩ := P.get l1 l2 ((l3 n).2 ⟨hn, h2⟩) hL
        exact ⟨s, e1, _, e2, fun hh => (l2.mem_erase_iff.1 hh).1 rfl, upd_erase l2 n (by simp)⟩
      · rw [if_neg h2]
        have : n ∉ L := fun hh => h2 ((l3 n).1 hh).2
        exact ⟨_, rfl, L, l1, this, upd_keep l2 n (by simp [this])⟩
    rw [e1]
    refine ⟨_, rfl, ?_, Or.inr rfl⟩
    simp only [if_neg hn0]
    rw [hfr2]
    have hncs : n ∉ c.changing := fun hh => h1 ((h.ch n).1 hh).2
    have hst : upd c.status n Status.busy n = .busy := upd_same _ _ _
    refine h.change hn rfl (fun m e => upd_ne _ _ e) (fun m _ => rfl) (fun m e => upd_ne _ _ e) (fun m e => upd_ne _ _ e) (fun m e => upd_ne _ _ e)
      ⟨L, L', P.update (P.refs _ e2) e3 ?_, l3, ?_⟩ ?_ ?_ ?_ ?_ ?_ ?_ ?_ ?_ ?_ ?_ ?_ ?_
    · show g.hits n + 1 < W; have := hhb n; omega
    · show Upd L L' n (upd c.status n .busy n = _); rw [hst]; exact e4
    · show Upd _ _ n (upd c.status n .busy n = _); rw [hst]; exact upd_erase h.fnd n (by simp)
    · show Upd _ _ n (upd c.status n .busy n = _); rw [hst]; exact upd_cons h.und n rfl
    · show Upd _ _ n (upd c.status n .busy n = _); rw [hst]; exact upd_erase h.cnd n (by simp)
    · intro i; show Upd _ _ n (upd c.status n .busy n ≠ _ ∧ _); rw [hst]; exact upd_keep (h.bnd i) n (by rw [h.b]; simp [hn, hs]; exact Iff.rfl)
    · show upd _ _ _ n = upd _ _ _ n; rw [upd_same, upd_same, hmod]
    · show 0 < upd _ _ _ n ↔ upd c.status n .busy n = _ ∨ upd c.status n .busy n = _; rw [upd_same, hst]; simp
    · intro _; show Names ops (upd _ _ _ n) (c.tag n); rw [upd_same]; rw [ht]; exact hd
    · intro m e m1 m2 _ m4; exact e (h.uniq m n m1 hn m2 hs m4)
    · show (if c.refcnt n = 0 then (c.used + 1) % W else c.used) = (n :: c.inUse.erase n).length + (c.changing.erase n).length
      rw [List.erase_of_not_mem hncs, List.length_cons, hrc, h.used]
      have hb := h.bounds
      have hheld := h.held n hn
      by_cases h3 : c.status n = .busy
      · have := len_erase ((h.u n).2 ⟨hn, h3⟩)
        rw [h3] at hheld
        simp at hheld
        rw [if_neg (by omega)]
        omega
      · rw [List.erase_of_not_mem (fun hh => h3 ((h.u n).1 hh).2)]
        simp only [h1, h3, or_self, iff_false] at hheld
        have hm : c.status n = .managed := by
          rcases hq : c.status n with _ | _ | _ | _
          · exact absurd hq hs
          · exact absurd hq h1
          · exact absurd hq h3
          · rfl
        have := hb.2.2 ⟨n, hn, Or.inr hm⟩
        rw [if_pos (by omega), Nat.mod_eq_of_lt (by omega)]
        omega
    · show c.pending = (c.changing.erase n).length
      rw [List.erase_of_not_mem hncs]; exact h.pend
    · show upd _ _ _ n ≤ _; rw [upd_same]; omega
    · intro m
      show upd _ _ _ m ≤ _
      by_cases e : m = n
      · subst e; rw [upd_same]; have := hhb m; show g.hits m + 1 ≤ _; omega
      · rw [upd_ne _ _ e]; exact Nat.le_succ_of_le (hhb m)

theorem choose_ok {a : Algo σ} {H : Past → σ → List Nat → Prop} {best : Past → List Nat → Nat → Prop} {cap : Nat} (P : Policy a H best cap)
    {ops : Ops} {c : Cache σ} {g : Past} {k : Nat} (h : Inv H ops c g k) (hcap : c.size ≤ cap)
    (hs : (c.freed.isEmpty && a.starving c.algo) = false) :
    ∃ L L' s B n, choose a c = some ({ c with algo := s, bucket := B }, n) ∧ In c n ∧ (∀ m, m ∈ L ↔ In c m ∧ c.status m = .managed) ∧
      H g s L' ∧ n ∉ L' ∧ Upd L L' n False ∧ (∀ i, (B i).Nodup ∧ ∀ m, m ∈ B i ↔ m ≠ n ∧ m ∈ c.bucket i) ∧
      (c.status n = .freed ∨ (c.status n = .managed ∧ c.freed = [] ∧ best g L n)) := by
  obtain ⟨L, l1, l2, l3⟩ := h.holds
  have hL : L.length ≤ cap := Nat.le_trans (length_le l2 (fun m hm => ((l3 m).1 hm).1)) hcap
  by_cases hf : c.freed = []
  · rw [hf] at hs
    have hst : ¬ a.starving c.algo = true := by simpa using hs
    have hne : L ≠ [] := fun e => hst ((P.starving l1).2 e)
    obtain ⟨n, s, e1, e2, e3, e4⟩ := P.obtain l1 l2 hne hL
    refine ⟨L, L.erase n, s, fun i => (c.bucket i).erase n, n, by unfold choose; rw [hf, e1]; rfl, ((l3 n).1 e2).1, l3, e3, fun hh => (l2.mem_erase_iff.1 hh).1 rfl,
      upd_erase l2 n (by simp), fun i => ⟨(h.bnd i).erase n, fun m => (h.bnd i).mem_erase_iff⟩, Or.inr ⟨((l3 n).1 e2).2, hf, e4⟩⟩
  · obtain ⟨n, rest, hf⟩ := List.exists_cons_of_ne_nil hf
    have hc : choose a c = some (c, n) := by simp only [choose, hf]
    have hn := (h.f n).1 (by rw [hf]; simp)
    have hnL : n ∉ L := fun hh => by have := ((l3 n).1 hh).2; rw [hn.2] at this; simp at this
    refine ⟨L, L, c.algo, c.bucket, n, hc, hn.1, l3, l1, hnL, upd_keep l2 n (by simp [hnL]), fun i => ⟨h.bnd i, fun m => ?_⟩, Or.inl hn.2⟩
    refine ⟨fun hm => ⟨fun e => ?_, hm⟩, fun hm => hm.2⟩
    have := ((h.b m i).1 hm).2.1
    rw [e] at this
    exact this hn.2

/-- C32, miss. -/
theorem miss_inv {a : Algo σ} {H : Past → σ → List Nat → Prop} {best : Past → List Nat → Nat → Prop} {cap : Nat} (P : Policy a H best cap)
    {ops : Ops} {c : Cache σ} {g : Past} {k : Nat} (h : Inv H ops c g k) (hcap : c.size ≤ cap) (hk : k + 1 < W) {tag : Nat} (change : Bool)
    (ht : ∀ m, In c m → c.status m ≠ .freed → c.tag m ≠ tag) {d : Nat} (hd : Names ops d tag) :
    ∃ r, miss a ops c tag change = some r ∧ Inv H ops (if r.2 = 0 then r.1 else { r.1 with data := upd r.1.data r.2 d }) (g.obtained c tag r.2) (k + 1) ∧
      (r.2 = 0 ∨ (In c r.2 ∧ Fresh c r.2 tag ∧ (c.status r.2 = .managed → c.freed = [] ∧
        ∃ L, (∀ m, m ∈ L ↔ In c m ∧ c.status m = .managed) ∧ best g L r.2))) := by
  unfold miss
  dsimp only
  cases change with
  | false =>
    refine ⟨_, rfl, ?_, Or.inl rfl⟩
    simp only [if_true, Past.obtained]
    exact h.later rfl rfl rfl rfl rfl rfl rfl rfl rfl rfl rfl rfl
  | true =>
    simp only [Bool.not_true, Bool.false_eq_true, if_false]
    rcases hst : (c.freed.isEmpty && a.starving c.algo) with _ | _
    · simp only [Bool.false_eq_true, if_false]
      by_cases hp : c.pending ≥ c.maxpend
      · rw [if_pos hp]
        refine ⟨_, rfl, ?_, Or.inl rfl⟩
        simp only [if_true, Past.obtained]
        exact h.later rfl rfl rfl rfl rfl rfl rfl rfl rfl rfl rfl rfl
      · rw [if_neg hp]
        have h' : Inv H ops { c with misses := (c.misses + 1) % W, dirty := true } g k :=
          ⟨h.size, h.holds, h.fnd, h.f, h.und, h.u, h.cnd, h.ch, h.refcnt, h.held, h.used, h.pend, h.bnd, h.b, h.names, h.uniq, h.rb, h.hb⟩
        obtain ⟨L, L', s, B, n, e1, hn, l3, e2, e3, e4, e5, e6⟩ := choose_ok P h' hcap hst
        rw [e1]
        simp only [Option.bind_some]
        obtain ⟨i1, -⟩ := h.slot (ops.hash tag)
        unfold assign insert unlink
        dsimp only
        rw [upd_same, i1]
        refine ⟨_, rfl, ?_, Or.inr ⟨hn, ?_, ?_⟩⟩
        · have hn0 : n ≠ 0 := by have := hn.1; omega
          dsimp only
          rw [if_neg hn0]
          have hfr : Fresh c n tag := by
            rcases e6 with e6 | ⟨e6, -⟩
            · exact Or.inl e6
            · exact Or.inr ⟨e6, ht n hn (by dsimp only at e6; rw [e6]; simp)⟩
          have hg : g.obtained c tag n = (g.ref n).fresh n := by simp only [Past.obtained, if_neg hn0, if_pos hfr]
          rw [hg]
          have hfm : c.status n = .freed ∨ c.status n = .managed := by
            rcases e6 with e6 | ⟨e6, -⟩
            · exact Or.inl e6
            · exact Or.inr e6
          have hr0 : g.refs n = 0 := by
            have := h.held n hn
            rcases hfm with e | e <;> rw [e] at this <;> simp at this <;> exact this
          have hrc : c.refcnt n = 0 := (h.refcnt n hn).trans hr0
          have hb := h.bounds
          have hb3 := hb.2.2 ⟨n, hn, hfm⟩
          have hst' : upd c.status n Status.pending n = .pending := upd_same _ _ _
          have hnu : n ∉ c.inUse := fun hh => by have := ((h.u n).1 hh).2; rcases hfm with e | e <;> rw [e] at this <;> simp at this
          have hnc : n ∉ c.changing := fun hh => by have := ((h.ch n).1 hh).2; rcases hfm with e | e <;> rw [e] at this <;> simp at this
          refine h.change hn rfl (fun m e => upd_ne _ _ e) (fun m e => upd_ne _ _ e) (fun m e => upd_ne _ _ e) (fun m e => upd_ne _ _ e) (fun m e => upd_ne _ _ e)
            ⟨L, L', P.clear (P.refs _ e2) e3, l3, ?_⟩ ?_ ?_ ?_ ?_ ?_ ?_ ?_ ?_ ?_ ?_ ?_ ?_
          · show Upd _ _ n (upd c.status n .pending n = _); rw [hst']; simpa using e4
          · show Upd _ _ n (upd c.status n .pending n = _); rw [hst']; exact upd_erase h.fnd n (by simp)
          · show Upd _ _ n (upd c.status n .pending n = _); rw [hst']; exact upd_erase h.und n (by simp)
          · show Upd _ _ n (upd c.status n .pending n = _); rw [hst']; exact upd_cons h.cnd n rfl
          · intro i
            show Upd _ (upd B _ _ i) n (upd c.status n .pending n ≠ _ ∧ i = Hashmap.slot c.size (ops.hash (upd c.tag n tag n)))
            rw [hst', upd_same]
            have hni : ∀ i, n ∉ B i := fun i hh => (((e5 i).2 n).1 hh).1 rfl
            by_cases e : i = Hashmap.slot c.size (ops.hash tag)
            · subst e
              rw [upd_same]
              refine ⟨List.nodup_cons.2 ⟨hni _, (e5 _).1⟩, fun m => ?_⟩
              rw [List.mem_cons, (e5 _).2]
              simp
            · rw [upd_ne _ _ e]
              refine ⟨(e5 i).1, fun m => ?_⟩
              rw [(e5 i).2]
              simp [e]
          · show upd c.refcnt n ((c.refcnt n + 1) % W) n = upd g.refs n (g.refs n + 1) n
            rw [upd_same, upd_same, hrc, hr0]; rfl
          · show 0 < upd _ _ _ n ↔ upd c.status n .pending n = _ ∨ upd c.status n .pending n = _; rw [upd_same, hst']; simp
          · intro _; show Names ops (upd _ _ _ n) (upd c.tag n tag n); rw [upd_same, upd_same]; exact hd
          · intro m e m1 m2 _
            show c.tag m ≠ upd c.tag n tag n
            rw [upd_same]; exact ht m m1 m2
          · show (c.used + 1) % W = (c.inUse.erase n).length + (n :: c.changing.erase n).length
            rw [List.erase_of_not_mem hnu, List.erase_of_not_mem hnc, List.length_cons, h.used, Nat.mod_eq_of_lt (by omega)]
            omega
          · show (c.pending + 1) % W = (n :: c.changing.erase n).length
            rw [List.erase_of_not_mem hnc, List.length_cons, h.pend, Nat.mod_eq_of_lt (by omega)]
          · show upd g.refs n (g.refs n + 1) n ≤ _; rw [upd_same, hr0]; omega
          · intro m
            show upd g.hits n 0 m ≤ _
            by_cases e : m = n
            · subst e; rw [upd_same]; omega
            · rw [upd_ne _ _ e]; exact Nat.le_succ_of_le (h.hb m)
        · dsimp only
          rcases e6 with e6 | ⟨e6, -⟩
          · exact Or.inl e6
          · exact Or.inr ⟨e6, ht n hn (by dsimp only at e6; rw [e6]; simp)⟩
        · dsimp only
          intro e
          rcases e6 with e6 | ⟨-, e7, e8⟩
          · dsimp only at e6; rw [e] at e6; simp at e6
          · exact ⟨e7, L, l3, e8⟩
    · simp only [if_true]
      refine ⟨_, rfl, ?_, Or.inl rfl⟩
      simp only [if_true, Past.obtained]
      exact h.later rfl rfl rfl rfl rfl rfl rfl rfl rfl rfl rfl rfl

theorem put_inv {a : Algo σ} {H : Past → σ → List Nat → Prop} {best : Past → List Nat → Nat → Prop} {cap : Nat} (P : Policy a H best cap)
    {ops : Ops} {c : Cache σ} {g : Past} {k : Nat} (h : Inv H ops c g k) (hcap : c.size ≤ cap) (hk : k + 1 < W) {n : Nat} (hn : In c n) :
    ∃ r, put a c n = some r ∧ Inv H ops r.1 (if c.status n ≠ .busy then g else if g.refs n = 1 then (g.unref n).release n else g.unref n) (k + 1) ∧
      r.2 = if c.status n ≠ .busy then W - 22 else g.refs n - 1 := by
  unfold put
  by_cases h1 : c.status n ≠ .busy
  · simp only [if_pos h1]
    exact ⟨_, rfl, h.later rfl rfl rfl rfl rfl rfl rfl rfl rfl rfl rfl rfl, rfl⟩
  · simp only [if_neg h1]
    have h1 : c.status n = .busy := Decidable.not_not.1 h1
    have hrc := h.refcnt n hn
    have hpos : 0 < g.refs n := (h.held n hn).2 (Or.inl h1)
    have hrb := h.rb n
    have hmod : (c.refcnt n + W - 1) % W = g.refs n - 1 := by
      rw [hrc, show g.refs n + W - 1 = (g.refs n - 1) + W by omega, Nat.add_mod_right, Nat.mod_eq_of_lt (by omega)]
    rw [hmod, upd_same]
    have hnc : n ∉ c.changing := fun hh => by have := ((h.ch n).1 hh).2; rw [h1] at this; simp at this
    obtain ⟨L, l1, l2, l3⟩ := h.holds
    have hnL : n ∉ L := fun hh => by have := ((l3 n).1 hh).2; rw [h1] at this; simp at this
    by_cases h2 : g.refs n = 1
    · rw [if_pos (by omega), if_pos h2]
      have hL : L.length + 1 ≤ cap := by
        have := length_le (l := n :: L) (s := c.size) (List.nodup_cons.2 ⟨hnL, l2⟩) (fun m hm => by
          rcases List.mem_cons.1 hm with rfl | hm
          · exact hn
          · exact ((l3 m).1 hm).1)
        simp at this
        omega
      obtain ⟨s, e1, e2⟩ := P.put (P.refs (g.unref n).refs l1) (by have := hn.1; omega) hnL hL
      show ∃ r, Option.map _ (a.put c.algo n) = _ ∧ _
      rw [e1]
      refine ⟨_, rfl, ?_, upd_same _ _ _⟩
      have hst : upd c.status n Status.managed n = .managed := upd_same _ _ _
      have hlen := len_erase ((h.u n).2 ⟨hn, h1⟩)
      have hb := h.bounds
      refine h.change hn rfl (fun m e => upd_ne _ _ e) (fun m _ => rfl) (fun m _ => rfl) (fun m e => upd_ne _ _ e) (fun m e => upd_ne _ _ e)
        ⟨L, n :: L, e2, l3, ?_⟩ ?_ ?_ ?_ ?_ ?_ ?_ ?_ ?_ ?_ ?_ ?_ ?_
      · show Upd _ _ n (upd c.status n .managed n = _); rw [hst]
        have := upd_cons l2 n (p := Status.managed = Status.managed) rfl
        rwa [List.erase_of_not_mem hnL] at this
      · show Upd _ _ n (upd c.status n .managed n = _); rw [hst]; exact upd_erase h.fnd n (by simp)
      · show Upd _ _ n (upd c.status n .managed n = _); rw [hst]; exact upd_erase h.und n (by simp)
      · show Upd _ _ n (upd c.status n .managed n = _); rw [hst]; exact upd_erase h.cnd n (by simp)
      · intro i; show Upd _ _ n (upd c.status n .managed n ≠ _ ∧ i = Hashmap.slot c.size (ops.hash (c.tag n))); rw [hst]
        exact upd_keep (h.bnd i) n (by rw [h.b]; simp [hn, h1])
      · show upd c.refcnt n (g.refs n - 1) n = upd g.refs n (g.refs n - 1) n; rw [upd_same, upd_same]
      · show 0 < upd g.refs n (g.refs n - 1) n ↔ upd c.status n .managed n = _ ∨ upd c.status n .managed n = _; rw [upd_same, hst, h2]; simp
      · intro _; exact h.names n hn (by rw [h1]; simp)
      · intro m e m1 m2 _ m4; exact e (h.uniq m n m1 hn m2 (by rw [h1]; simp) m4)
      · show (c.used + W - 1) % W = (c.inUse.erase n).length + (c.changing.erase n).length
        rw [List.erase_of_not_mem hnc, h.used, show c.inUse.length + c.changing.length + W - 1 = ((c.inUse.erase n).length + c.changing.length) + W by omega,
          Nat.add_mod_right, Nat.mod_eq_of_lt (by omega)]
      · show c.pending = (c.changing.erase n).length
        rw [List.erase_of_not_mem hnc]; exact h.pend
      · show upd g.refs n (g.refs n - 1) n ≤ _; rw [upd_same]; omega
      · intro m; exact Nat.le_succ_of_le (h.hb m)
    · rw [if_neg (by omega), if_neg h2]
      refine ⟨_, rfl, ?_, rfl⟩
      refine h.change hn rfl (fun m _ => rfl) (fun m _ => rfl) (fun m _ => rfl) (fun m e => upd_ne _ _ e) (fun m e => upd_ne _ _ e)
        ⟨L, L, P.refs _ l1, l3, upd_keep l2 n (by rw [l3]; simp [hn])⟩ (upd_keep h.fnd n (by rw [h.f]; simp [hn]))
        (upd_keep h.und n (by rw [h.u]; simp [hn])) (upd_keep h.cnd n (by rw [h.ch]; simp [hn]))
        (fun i => upd_keep (h.bnd i) n (by rw [h.b]; simp [hn])) ?_ ?_ ?_ ?_ h.used h.pend ?_ ?_
      · show upd c.refcnt n (g.refs n - 1) n = upd g.refs n (g.refs n - 1) n; rw [upd_same, upd_same]
      · show 0 < upd g.refs n (g.refs n - 1) n ↔ _; rw [upd_same]; simp [h1]; omega
      · intro _; exact h.names n hn (by rw [h1]; simp)
      · intro m e m1 m2 _ m4; exact e (h.uniq m n m1 hn m2 (by rw [h1]; simp) m4)
      · show upd g.refs n (g.refs n - 1) n ≤ _; rw [upd_same]; omega
      · intro m; exact Nat.le_succ_of_le (h.hb m)

theorem del_inv {a : Algo σ} {H : Past → σ → List Nat → Prop} {best : Past → List Nat → Nat → Prop} {cap : Nat} (P : Policy a H best cap)
    {ops : Ops} {c : Cache σ} {g : Past} {k : Nat} (h : Inv H ops c g k) (hcap : c.size ≤ cap) {n : Nat} (hn : In c n) :
    ∃ r, del a c n = some r ∧ Inv H ops r.1 g (k + 1) ∧ r.2 = if c.status n ≠ .managed then -16 else 0 := by
  unfold del
  by_cases h1 : c.status n ≠ .managed
  · simp only [if_pos h1]
    exact ⟨_, rfl, h.later rfl rfl rfl rfl rfl rfl rfl rfl rfl rfl rfl rfl, rfl⟩
  · simp only [if_neg h1]
    have h1 : c.status n = .managed := Decidable.not_not.1 h1
    obtain ⟨L, l1, l2, l3⟩ := h.holds
    have hL : L.length ≤ cap := Nat.le_trans (length_le l2 (fun m hm => ((l3 m).1 hm).1)) hcap
    obtain ⟨s, e1, e2⟩ := P.get l1 l2 ((l3 n).2 ⟨hn, h1⟩) hL
    rw [e1]
    refine ⟨_, rfl, ?_, rfl⟩
    have hnc : n ∉ c.changing := fun hh => by have := ((h.ch n).1 hh).2; rw [h1] at this; simp at this
    have hnu : n ∉ c.inUse := fun hh => by have := ((h.u n).1 hh).2; rw [h1] at this; simp at this
    have hst : upd c.status n Status.freed n = .freed := upd_same _ _ _
    refine h.change hn rfl (fun m e => upd_ne _ _ e) (fun m _ => rfl) (fun m _ => rfl) (fun m e => rfl) (fun m e => rfl)
      ⟨L, L.erase n, e2, l3, ?_⟩ ?_ ?_ ?_ ?_ (h.refcnt n hn) ?_ ?_ ?_ ?_ ?_ (Nat.le_succ_of_le (h.rb n)) (fun m => Nat.le_succ_of_le (h.hb m))
    · show Upd _ _ n (upd c.status n .freed n = _); rw [hst]; exact upd_erase l2 n (by simp)
    · show Upd _ _ n (upd c.status n .freed n = _); rw [hst]; exact upd_cons h.fnd n rfl
    · show Upd _ _ n (upd c.status n .freed n = _); rw [hst]; exact upd_erase h.und n (by simp)
    · show Upd _ _ n (upd c.status n .freed n = _); rw [hst]; exact upd_erase h.cnd n (by simp)
    · intro i; show Upd _ _ n (upd c.status n .freed n ≠ _ ∧ _); rw [hst]; exact upd_erase (h.bnd i) n (by simp)
    · show 0 < g.refs n ↔ upd c.status n .freed n = _ ∨ upd c.status n .freed n = _; rw [hst, h.held n hn, h1]; simp
    · show upd c.status n .freed n ≠ _ → _; rw [hst]; simp
    · intro m _ _ _; show upd c.status n .freed n ≠ _ → _; rw [hst]; simp
    · show c.used = (c.inUse.erase n).length + (c.changing.erase n).length
      rw [List.erase_of_not_mem hnc, List.erase_of_not_mem hnu]; exact h.used
    · show c.pending = (c.changing.erase n).length
      rw [List.erase_of_not_mem hnc]; exact h.pend

theorem set_inv {a : Algo σ} {H : Past → σ → List Nat → Prop} {best : Past → List Nat → Nat → Prop} {cap : Nat} (P : Policy a H best cap)
    {ops : Ops} {c : Cache σ} {g : Past} {k : Nat} (h : Inv H ops c g k) (hcap : c.size ≤ cap) (hk : k + 1 < W) {n tag d : Nat} (hn : In c n)
    (hd : Names ops d tag) (ht : ∀ m, In c m → c.status m ≠ .freed → c.tag m ≠ tag) :
    ∃ r, set a ops c n tag = some r ∧ r.2 = (if c.status n ≠ .managed then -16 else 0) ∧
      (c.status n ≠ .managed → Inv H ops r.1 g (k + 1)) ∧
      (c.status n = .managed → Inv H ops { r.1 with data := upd r.1.data n d } ((g.hit n).release n) (k + 1)) := by
  unfold set
  by_cases h1 : c.status n ≠ .managed
  · simp only [if_pos h1]
    exact ⟨_, rfl, rfl, fun _ => h.later rfl rfl rfl rfl rfl rfl rfl rfl rfl rfl rfl rfl, fun e => absurd e h1⟩
  · simp only [if_neg h1]
    have h1 : c.status n = .managed := Decidable.not_not.1 h1
    obtain ⟨L, l1, l2, l3⟩ := h.holds
    have hnL : n ∈ L := (l3 n).2 ⟨hn, h1⟩
    have hL : L.length ≤ cap := Nat.le_trans (length_le l2 (fun m hm => ((l3 m).1 hm).1)) hcap
    obtain ⟨s, e1, e2⟩ := P.get l1 l2 hnL hL
    rw [e1]
    obtain ⟨i1, -⟩ := h.slot (ops.hash tag)
    unfold insert hashDel
    simp only [Option.bind_some]
    rw [upd_same, i1]
    simp only [Option.map_some, Option.bind_some]
    have hne : n ∉ L.erase n := fun hh => (l2.mem_erase_iff.1 hh).1 rfl
    have hhb := h.hb n
    obtain ⟨s', e3, e4⟩ := P.put (P.update e2 hne (by omega)) (by have := hn.1; omega) hne (by rw [len_erase hnL]; exact hL)
    rw [e3]
    refine ⟨_, rfl, rfl, fun e => absurd h1 e, fun _ => ?_⟩
    refine h.change hn rfl (fun m _ => rfl) (fun m e => upd_ne _ _ e) (fun m e => upd_ne _ _ e) (fun m e => rfl) (fun m e => rfl)
      ⟨L, n :: L.erase n, e4, l3, upd_cons l2 n h1⟩ (upd_keep h.fnd n (by rw [h.f]; simp [hn]))
      (upd_keep h.und n (by rw [h.u]; simp [hn])) (upd_keep h.cnd n (by rw [h.ch]; simp [hn])) ?_ (h.refcnt n hn) (h.held n hn) ?_ ?_ h.used h.pend
      (Nat.le_succ_of_le (h.rb n)) ?_
    · intro i
      show Upd _ (upd (fun i => (c.bucket i).erase n) _ _ i) n (c.status n ≠ _ ∧ i = Hashmap.slot c.size (ops.hash (upd c.tag n tag n)))
      rw [h1, upd_same]
      by_cases e : i = Hashmap.slot c.size (ops.hash tag)
      · subst e
        rw [upd_same]
        exact upd_cons (h.bnd _) n ⟨by simp, rfl⟩
      · rw [upd_ne _ _ e]
        exact upd_erase (h.bnd i) n (by simp [e])
    · intro _; show Names ops (upd _ _ _ n) (upd c.tag n tag n); rw [upd_same, upd_same]; exact hd
    · intro m e m1 m2 _
      show c.tag m ≠ upd c.tag n tag n
      rw [upd_same]; exact ht m m1 m2
    · intro m
      show upd g.hits n (g.hits n + 1) m ≤ _
      by_cases e : m = n
      · subst e; rw [upd_same]; omega
      · rw [upd_ne _ _ e]; exact Nat.le_succ_of_le (h.hb m)

theorem fill_inv {H : Past → σ → List Nat → Prop} {ops : Ops} {c : Cache σ} {g : Past} {k : Nat} (h : Inv H ops c g k) {n d : Nat} (hn : In c n)
    (hd : Names ops d (c.tag n)) : Inv H ops { c with data := upd c.data n d } g (k + 1) := by
  obtain ⟨L, l1, l2, l3⟩ := h.holds
  refine h.change hn rfl (fun m _ => rfl) (fun m _ => rfl) (fun m e => upd_ne _ _ e) (fun m _ => rfl) (fun m _ => rfl)
    ⟨L, L, l1, l3, upd_keep l2 n (by rw [l3]; simp [hn])⟩ (upd_keep h.fnd n (by rw [h.f]; simp [hn]))
    (upd_keep h.und n (by rw [h.u]; simp [hn])) (upd_keep h.cnd n (by rw [h.ch]; simp [hn]))
    (fun i => upd_keep (h.bnd i) n (by rw [h.b]; simp [hn])) (h.refcnt n hn) (h.held n hn) ?_ ?_ h.used h.pend (Nat.le_succ_of_le (h.rb n))
    (fun m => Nat.le_succ_of_le (h.hb m))
  · intro _; show Names ops (upd _ _ _ n) _; rw [upd_same]; exact hd
  · intro m e m1 m2 m3 m4; exact e (h.uniq m n m1 hn m2 m3 m4)

/-- One iteration of the commit loop. -/
theorem commitOne_fields (c : Cache σ) (n : Nat) (rest : List Nat) (h : c.changing = n :: rest) (hf : n ∉ c.freed) (hu : n ∉ c.inUse) :
    commitOne c n = { c with inUse := n :: c.inUse, changing := rest, status := upd c.status n .busy, changed := (c.changed + 1) % W } := by
  unfold commitOne unlink
  simp only [h, List.erase_cons_head, List.erase_of_not_mem hf, List.erase_of_not_mem hu]

/-- The commit loop, seen from outside. -/
theorem commit_fold (f : List Nat) : ∀ (l : List Nat) (c : Cache σ), c.changing = l → l.Nodup → c.freed = f → (∀ n ∈ l, n ∉ f ∧ n ∉ c.inUse) →
    ∃ v, l.foldl commitOne c = { c with inUse := l.reverse ++ c.inUse, changing := [], status := fun n => if n ∈ l then .busy else c.status n, changed := v } := by
  intro l
  induction l with
  | nil => intro c h _ _ _; exact ⟨c.changed, by cases c; simp at h; simp [h]⟩
  | cons n l ih =>
    intro c h hd hf hm
    obtain ⟨h1, h2⟩ := List.nodup_cons.1 hd
    obtain ⟨m1, m2⟩ := hm n (by simp)
    rw [List.foldl_cons, commitOne_fields c n l h (by rw [hf]; exact m1) m2]
    obtain ⟨v, e⟩ := ih { c with inUse := n :: c.inUse, changing := l, status := upd c.status n .busy, changed := (c.changed + 1) % W } rfl h2 hf
      (fun m hm' => ⟨(hm m (by simp [hm'])).1, fun hh => by
        rcases List.mem_cons.1 hh with rfl | hh
        · exact h1 hm'
        · exact (hm m (by simp [hm'])).2 hh⟩)
    rw [e]
    refine ⟨v, ?_⟩
    dsimp only
    congr 1
    · simp
    · funext m
      by_cases e1 : m ∈ l
      · simp [e1]
      · by_cases e2 : m = n
        · subst e2; simp [e1, upd_same]
        · simp [e1, e2, upd_ne _ _ e2]

theorem commit_inv {H : Past → σ → List Nat → Prop} {ops : Ops} {c : Cache σ} {g : Past} {k : Nat} (h : Inv H ops c g k) :
    Inv H ops (committed c) g (k + 1) ∧ ∀ n, (committed c).status n = if c.status n = .pending ∧ In c n then .busy else c.status n := by
  obtain ⟨v, e⟩ := commit_fold c.freed c.changing c rfl h.cnd rfl (fun n hn => by
    have := ((h.ch n).1 hn).2
    exact ⟨fun hh => by rw [((h.f n).1 hh).2] at this; simp at this, fun hh => by rw [((h.u n).1 hh).2] at this; simp at this⟩)
  unfold committed
  rw [e]
  have key : ∀ n, (if n ∈ c.changing then Status.busy else c.status n) = if c.status n = .pending ∧ In c n then .busy else c.status n := by
    intro n
    simp only [h.ch n, and_comm]
  have list : ∀ {l : List Nat} {q : Status}, q ≠ .busy → q ≠ .pending → (∀ m, m ∈ l ↔ In c m ∧ c.status m = q) →
      ∀ m, m ∈ l ↔ In c m ∧ (if m ∈ c.changing then Status.busy else c.status m) = q := by
    intro l q h1 h2 h3 m
    rw [h3]
    by_cases e : m ∈ c.changing
    · rw [if_pos e, ((h.ch m).1 e).2]
      simp [Ne.symm h1, Ne.symm h2]
    · rw [if_neg e]
  refine ⟨⟨h.size, ?_, h.fnd, list (by simp) (by simp) h.f, ?_, ?_, by simp, ?_, h.refcnt, ?_, ?_, rfl, h.bnd, ?_, ?_, ?_,
    fun m => Nat.le_succ_of_le (h.rb m), fun m => Nat.le_succ_of_le (h.hb m)⟩, key⟩
  · obtain ⟨L, l1, l2, l3⟩ := h.holds
    exact ⟨L, l1, l2, list (by simp) (by simp) l3⟩
  · refine List.nodup_append.2 ⟨(List.reverse_perm _).nodup_iff.2 h.cnd, h.und, fun a ha b hb e => ?_⟩
    subst e
    have h1 := ((h.ch a).1 (List.mem_reverse.1 ha)).2
    rw [((h.u a).1 hb).2] at h1
    simp at h1
  · intro m
    dsimp only
    rw [List.mem_append, List.mem_reverse, h.u]
    show _ ↔ In c m ∧ _
    by_cases e : m ∈ c.changing
    · have := ((h.ch m).1 e).1
      simp [e, this]
    · simp [e]
  · intro m
    show m ∈ [] ↔ In c m ∧ (if m ∈ c.changing then Status.busy else c.status m) = .pending
    by_cases e : m ∈ c.changing
    · simp [e]
    · rw [if_neg e, ← h.ch]; simpa using e
  · intro m hm
    show 0 < g.refs m ↔ (if m ∈ c.changing then Status.busy else c.status m) = .busy ∨ (if m ∈ c.changing then Status.busy else c.status m) = .pending
    rw [h.held m hm]
    by_cases e : m ∈ c.changing
    · simp [e, ((h.ch m).1 e).2]
    · rw [if_neg e]
  · show c.used = (c.changing.reverse ++ c.inUse).length + 0
    rw [h.used, List.length_append, List.length_reverse]; omega
  · intro m i
    dsimp only
    rw [h.b]
    show In c m ∧ _ ↔ In c m ∧ _
    by_cases e : m ∈ c.changing
    · rw [if_pos e, ((h.ch m).1 e).2]; simp
    · rw [if_neg e]
  · intro m hm hs
    refine h.names m hm (fun e => hs ?_)
    show (if m ∈ c.changing then Status.busy else c.status m) = _
    rw [if_neg (fun hh => by rw [((h.ch m).1 hh).2] at e; simp at e)]; exact e
  · intro m1 m2 h1 h2 h3 h4 h5
    refine h.uniq m1 m2 h1 h2 (fun e => h3 ?_) (fun e => h4 ?_) h5
    · show (if m1 ∈ c.changing then Status.busy else c.status m1) = _
      rw [if_neg (fun hh => by rw [((h.ch m1).1 hh).2] at e; simp at e)]; exact e
    · show (if m2 ∈ c.changing then Status.busy else c.status m2) = _
      rw [if_neg (fun hh => by rw [((h.ch m2).1 hh).2] at e; simp at e)]; exact e

end Bfdev.Cache
