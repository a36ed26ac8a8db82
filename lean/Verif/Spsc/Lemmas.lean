import Verif.Fifo.Lemmas
import Verif.Spsc.Spec
namespace Bfdev.Spsc
open Fifo (Fifo Inv copyPlan)

/-! ## Addresses -/

/-- The address of the `m`-th byte of the queue. -/
def pos (f : Fifo) (k m : Nat) : Nat := (f.out % 2 ^ k * f.esize + m) % f.data.length

theorem wrap {o L m : Nat} (ho : o < L) (hm : m ≤ L) : (o + m) % L = if o + m < L then o + m else o + m - L := by
  split
  · rename_i h; exact Nat.mod_eq_of_lt h
  · rename_i h
    rw [Nat.mod_eq_sub_mod (by omega)]
    exact Nat.mod_eq_of_lt (by omega)

theorem pos_lt {f : Fifo} {k : Nat} (h : Inv f k) (m : Nat) : pos f k m < f.data.length :=
  Nat.mod_lt _ (Nat.lt_of_le_of_lt (Nat.zero_le _) (h.start_lt 0))

theorem pos_inj {f : Fifo} {k m m' : Nat} (h : Inv f k) (h1 : m < f.data.length) (h2 : m' < f.data.length) (e : pos f k m = pos f k m') : m = m' := by
  have ho := h.start_lt f.out
  unfold pos at e
  rw [wrap ho (by omega), wrap ho (by omega)] at e
  split at e <;> split at e <;> omega

theorem start_eq {f : Fifo} {k : Nat} (h : Inv f k) {n : Nat} (hn : n ≤ 2 ^ k) : w64 (f.out + n) % 2 ^ k * f.esize = pos f k (n * f.esize) := by
  have hl := h.len_le hn
  have ho := h.start_lt f.out
  unfold pos
  rw [wrap ho hl, Fifo.pos_adv h.size_lt h.hes hn, h.hdata, h.hmask]

theorem valid_le {f : Fifo} {k : Nat} (h : Inv f k) : Fifo.valid f ≤ 2 ^ k := by have := h.hvalid; rw [h.hmask] at this; exact this

theorem inp_start {f : Fifo} {k : Nat} (h : Inv f k) : f.inp % 2 ^ k * f.esize = pos f k (Fifo.valid f * f.esize) := by
  rw [← start_eq h (valid_le h), ← h.inp_eq]

theorem pos_pos {f : Fifo} {k m m' : Nat} : (pos f k m + m') % f.data.length = pos f k (m + m') := by
  unfold pos
  rw [Nat.mod_add_mod, Nat.add_assoc]

/-! ## The copies -/

theorem mem_stores {off : Nat} {bs : List Byte} {x : Nat × Byte} : x ∈ stores off bs ↔ ∃ i : Nat, bs[i]? = some x.2 ∧ x.1 = off + i := by
  unfold stores
  simp only [List.mem_map, Prod.exists, List.mem_zipIdx_iff_getElem?]
  constructor
  · rintro ⟨b, i, h, rfl⟩; exact ⟨i, h, rfl⟩
  · rintro ⟨i, h, e⟩; exact ⟨x.2, i, h, by rw [← e]⟩

theorem mem_loads {i a n : Nat} {x : Nat × Nat} : x ∈ loads i a n ↔ ∃ j, j < n ∧ x = (i + j, a + j) := by
  unfold loads
  simp only [List.mem_map, List.mem_range]
  constructor
  · rintro ⟨j, h, rfl⟩; exact ⟨j, h, rfl⟩
  · rintro ⟨j, h, rfl⟩; exact ⟨j, h, rfl⟩

/-- The stores of a copy of `len` elements to the counter value `offset`. -/
theorem inPlan_eq {f : Fifo} {k : Nat} (h : Inv f k) {len : Nat} (hl : len ≤ 2 ^ k) (offset : Nat) (buff : List Byte) (hb : len * f.esize ≤ buff.length) :
    ∃ todo, inPlan f buff len offset = some todo ∧
      ∀ x, x ∈ todo ↔ ∃ m : Nat, (buff.take (len * f.esize))[m]? = some x.2 ∧ x.1 = (offset % 2 ^ k * f.esize + m) % f.data.length := by
  have ho := h.start_lt offset
  have hle := h.len_le hl
  unfold inPlan
  rw [h.plan hl]
  simp only
  generalize offset % 2 ^ k * f.esize = o at *
  generalize len * f.esize = n at *
  generalize f.data.length = L at *
  rw [rd_eq_some (by omega), rd_eq_some (by omega)]
  refine ⟨_, rfl, fun x => ?_⟩
  simp only [List.mem_append, mem_stores, List.drop_zero, Nat.zero_add]
  constructor
  · rintro (⟨i, h1, h2⟩ | ⟨i, h1, h2⟩)
    · obtain ⟨hi, h1⟩ := List.getElem?_eq_some_iff.1 h1
      simp only [List.length_take, List.getElem_take] at hi h1
      refine ⟨i, ?_, ?_⟩
      · rw [List.getElem?_take, if_pos (by omega), ← h1]
        exact List.getElem?_eq_getElem (by omega)
      · rw [wrap ho (by omega), if_pos (by omega)]; exact h2
    · obtain ⟨hi, h1⟩ := List.getElem?_eq_some_iff.1 h1
      simp only [List.length_take, List.length_drop, List.getElem_take, List.getElem_drop] at hi h1
      refine ⟨min n (L - o) + i, ?_, ?_⟩
      · rw [List.getElem?_take, if_pos (by omega), ← h1]
        exact List.getElem?_eq_getElem (by omega)
      · rw [wrap ho (by omega), if_neg (by omega)]; omega
  · rintro ⟨m, h1, h2⟩
    obtain ⟨hm, h1⟩ := List.getElem?_eq_some_iff.1 h1
    simp only [List.length_take, List.getElem_take] at hm h1
    rw [wrap ho (by omega)] at h2
    by_cases hc : m < min n (L - o)
    · refine .inl ⟨m, ?_, ?_⟩
      · rw [List.getElem?_take, if_pos hc, ← h1]
        exact List.getElem?_eq_getElem (by omega)
      · rw [if_pos (by omega)] at h2; exact h2
    · refine .inr ⟨m - min n (L - o), ?_, ?_⟩
      · rw [List.getElem?_take, if_pos (by omega), List.getElem?_drop, ← h1, show min n (L - o) + (m - min n (L - o)) = m by omega]
        exact List.getElem?_eq_getElem (by omega)
      · rw [if_neg (by omega)] at h2; omega

/-- The loads of a copy of `len` elements from the counter value `offset`. -/
theorem outPlan_eq {f : Fifo} {k : Nat} (h : Inv f k) {len : Nat} (hl : len ≤ 2 ^ k) (offset : Nat) (x : Nat × Nat) :
    x ∈ outPlan f len offset ↔ ∃ m, m < len * f.esize ∧ x = (m, (offset % 2 ^ k * f.esize + m) % f.data.length) := by
  have ho := h.start_lt offset
  have hle := h.len_le hl
  unfold outPlan
  rw [h.plan hl]
  simp only
  generalize offset % 2 ^ k * f.esize = o at *
  generalize len * f.esize = n at *
  generalize f.data.length = L at *
  simp only [List.mem_append, mem_loads, Nat.zero_add]
  constructor
  · rintro (⟨j, h1, h2⟩ | ⟨j, h1, h2⟩)
    · refine ⟨j, by omega, ?_⟩
      rw [wrap ho (by omega), if_pos (by omega)]; exact h2
    · refine ⟨min n (L - o) + j, by omega, ?_⟩
      rw [wrap ho (by omega), if_neg (by omega), h2]
      congr 1; omega
  · rintro ⟨m, h1, h2⟩
    rw [wrap ho (by omega)] at h2
    by_cases hc : m < min n (L - o)
    · refine .inl ⟨m, hc, ?_⟩
      rw [if_pos (by omega)] at h2; exact h2
    · refine .inr ⟨m - min n (L - o), by omega, ?_⟩
      rw [if_neg (by omega)] at h2
      rw [h2]
      congr 1 <;> omega

/-- The byte-wise assignment of the macros. -/
theorem slot_eq {f : Fifo} {k : Nat} (h : Inv f k) (x : Nat) : slot f x = x % 2 ^ k * f.esize := by
  unfold slot
  rw [Fifo.mask_mod h.hmask]

theorem slot_room {f : Fifo} {k : Nat} (h : Inv f k) (x : Nat) : x % 2 ^ k * f.esize + f.esize ≤ f.data.length := by
  rw [h.hdata, h.hmask, ← Nat.succ_mul]
  exact Nat.mul_le_mul_right _ (Nat.mod_lt _ (Nat.two_pow_pos k))

/-! ## The invariant -/

/-- The call of the writing side: every byte is stored already or still to be stored. -/
structure PGood (f : Fifo) (k : Nat) (items : List (List Byte)) (p : PCall) (els : List (List Byte)) : Prop where
  n : p.n = els.length
  sz : ∀ e ∈ els, e.length = f.esize
  room : items.length + els.length ≤ 2 ^ k
  cov : ∀ m v, els.flatten[m]? = some v → (pos f k (items.flatten.length + m), v) ∈ p.todo ∨ f.data[pos f k (items.flatten.length + m)]? = some v
  todo : ∀ x ∈ p.todo, ∃ m, els.flatten[m]? = some x.2 ∧ x.1 = pos f k (items.flatten.length + m)

/-- The call of the reading side: every byte is loaded already or still to be loaded. -/
structure CGood (f : Fifo) (k : Nat) (items : List (List Byte)) (c : CCall) (n : Nat) : Prop where
  cnt : c.n = n
  le : n ≤ items.length
  size : c.buf.length = c.before.length
  rest : ∀ m : Nat, c.kind = .peek ∨ c.kind = .out → n * f.esize ≤ m → c.buf[m]? = c.before[m]?
  room : c.kind = .peek ∨ c.kind = .out → n * f.esize ≤ c.before.length
  cov : ∀ m : Nat, c.kind = .peek ∨ c.kind = .out → m < n * f.esize → (m, pos f k m) ∈ c.todo ∨ c.buf[m]? = items.flatten[m]?
  todo : ∀ x ∈ c.todo, ∃ m, m < n * f.esize ∧ m < c.buf.length ∧ x = (m, pos f k m)
  home : ∀ inp, c.kind = .home inp → inp = w64 (f.out + n)

structure Good (s : Sys) (k : Nat) (q : Queue) : Prop where
  inv : Inv s.f k
  cap : q.cap = 2 ^ k
  len : q.items.length = Fifo.valid s.f
  sz : ∀ e ∈ q.items, e.length = s.f.esize
  cont : ∀ m, m < q.items.flatten.length → s.f.data[pos s.f k m]? = q.items.flatten[m]?
  pnone : s.prod = none ↔ q.adding = none
  prod : ∀ p els, s.prod = some p → q.adding = some els → PGood s.f k q.items p els
  cnone : s.cons = none ↔ q.taking = none
  cons : ∀ c n, s.cons = some c → q.taking = some n → CGood s.f k q.items c n

/-- What one step does: it is defined, the events it adds are explained by the queue, and the invariant is kept. -/
def Fine (k : Nat) (s : Sys) (q : Queue) (o : Option Sys) : Prop :=
  ∃ s' q' evs, o = some s' ∧ s'.f.esize = s.f.esize ∧ s'.log = s.log ++ evs ∧ q.run evs = some q' ∧ Good s' k q'

theorem Fine.skip {k : Nat} {s : Sys} {q : Queue} (h : Good s k q) : Fine k s q (some s) :=
  ⟨s, q, [], rfl, rfl, by simp, rfl, h⟩

theorem Queue.run_one {q q' : Queue} {e : Ev} (h : q.step e = some q') : q.run [e] = some q' := by
  simp [Queue.run, h]

theorem flat_len {s : Sys} {k : Nat} {q : Queue} (h : Good s k q) : q.items.flatten.length = Fifo.valid s.f * s.f.esize := by
  rw [Fifo.flatten_length h.sz, h.len]

variable {s : Sys} {k : Nat} {q : Queue}

/-! ## Steps of the writing side -/

theorem begin_fine (h : Good s k q) (hp : s.prod = none) {elems : List (List Byte)} {len : Nat} {todo : List (Nat × Byte)} {n : Nat}
    (hels : ∀ e ∈ elems, e.length = s.f.esize) (hl : len ≤ elems.length) (hn : n = min len (2 ^ k - Fifo.valid s.f))
    (ht : ∀ x, x ∈ todo ↔ ∃ m : Nat, (elems.take n).flatten[m]? = some x.2 ∧ x.1 = (s.f.inp % 2 ^ k * s.f.esize + m) % s.f.data.length) :
    Fine k s q (some ({ s with prod := some ⟨n, todo⟩ }.note (.inBegin elems len))) := by
  have hv := valid_le h.inv
  have hqa : q.adding = none := h.pnone.1 hp
  have hlen := h.len
  have hq : q.step (.inBegin elems len) = some { q with adding := some (elems.take n) } := by
    simp only [Queue.step, hqa, h.cap, hlen, if_true]
    rw [hn]
  have hfl := flat_len h
  refine ⟨_, _, [.inBegin elems len], rfl, rfl, rfl, Queue.run_one hq, ⟨h.inv, h.cap, h.len, h.sz, h.cont, ?_, ?_, h.cnone, h.cons⟩⟩
  · constructor <;> intro e <;> cases e
  · intro p els hp' hels'
    cases hp'; cases hels'
    have htl : (elems.take n).length = n := by rw [List.length_take]; omega
    have hpos : ∀ m, (s.f.inp % 2 ^ k * s.f.esize + m) % s.f.data.length = pos s.f k (q.items.flatten.length + m) := by
      intro m; rw [inp_start h.inv, pos_pos, hfl]
    refine ⟨htl.symm, fun e he => hels e (List.mem_of_mem_take he), by rw [htl, hlen]; omega, fun m v hv => ?_, fun x hx => ?_⟩
    · refine .inl ((ht _).2 ⟨m, hv, ?_⟩)
      exact (hpos m).symm
    · obtain ⟨m, h1, h2⟩ := (ht x).1 hx
      exact ⟨m, h1, by rw [h2]; exact hpos m⟩

theorem put_fine (h : Good s k q) {v : List Byte} (hok : v.length = s.f.esize) : Fine k s q (step s (.put v)) := by
  unfold step
  cases hp : s.prod with
  | some p => exact .skip h
  | none =>
    have hv := valid_le h.inv
    have hm := h.inv.hmask
    simp only
    by_cases hf : Fifo.full s.f = true
    · rw [if_pos hf]
      have hq : q.step (.putFull v) = some q := by
        have : s.f.mask < Fifo.valid s.f := by simpa [Fifo.full] using hf
        simp only [Queue.step]
        exact if_pos ⟨h.pnone.1 hp, by rw [h.len, h.cap]; omega⟩
      exact ⟨_, q, [.putFull v], rfl, rfl, rfl, Queue.run_one hq, ⟨h.inv, h.cap, h.len, h.sz, h.cont, h.pnone, h.prod, h.cnone, h.cons⟩⟩
    · rw [if_neg hf]
      have hroom : ¬ s.f.mask < Fifo.valid s.f := by simpa [Fifo.full] using hf
      refine begin_fine h hp (elems := [v]) (len := 1) (by simpa using hok) (by simp) (by omega) fun x => ?_
      have hr := slot_room h.inv s.f.inp
      rw [mem_stores, slot_eq h.inv]
      constructor
      · rintro ⟨i, h1, h2⟩
        have := (List.getElem?_eq_some_iff.1 h1).1
        refine ⟨i, by simpa using h1, ?_⟩
        rw [Nat.mod_eq_of_lt (by omega)]; exact h2
      · rintro ⟨i, h1, h2⟩
        have h1 : v[i]? = some x.2 := by simpa using h1
        have := (List.getElem?_eq_some_iff.1 h1).1
        refine ⟨i, h1, ?_⟩
        rw [Nat.mod_eq_of_lt (by omega)] at h2; exact h2

theorem inn_fine (h : Good s k q) {elems : List (List Byte)} {len : Nat} (hok : (∀ e ∈ elems, e.length = s.f.esize) ∧ len ≤ elems.length) :
    Fine k s q (step s (.inn elems len)) := by
  unfold step
  cases hp : s.prod with
  | some p => exact .skip h
  | none =>
    have hv := valid_le h.inv
    simp only
    rw [h.inv.unused_eq]
    have hfl := Fifo.flatten_length hok.1
    have hb : min len (2 ^ k - Fifo.valid s.f) * s.f.esize ≤ elems.flatten.length := by
      rw [hfl]; exact Nat.mul_le_mul_right _ (by have := hok.2; omega)
    obtain ⟨todo, h1, h2⟩ := inPlan_eq h.inv (len := min len (2 ^ k - Fifo.valid s.f)) (by omega) s.f.inp elems.flatten hb
    rw [h1]
    refine begin_fine h hp hok.1 hok.2 rfl fun x => ?_
    rw [h2 x, Fifo.flatten_take hok.1]

theorem store_fine (h : Good s k q) (i : Nat) : Fine k s q (step s (.store i)) := by
  unfold step
  cases hp : s.prod with
  | none => exact .skip h
  | some p =>
    simp only
    cases ht : p.todo[i]? with
    | none => exact .skip h
    | some x =>
      obtain ⟨a, v⟩ := x
      simp only
      obtain ⟨els, hq⟩ : ∃ els, q.adding = some els := by
        cases hq : q.adding with
        | some els => exact ⟨els, rfl⟩
        | none => rw [h.pnone.2 hq] at hp; cases hp
      have hg := h.prod p els hp hq
      have hfl := flat_len h
      obtain ⟨m0, hm0, ha⟩ := hg.todo (a, v) (List.mem_of_getElem? ht)
      simp only at hm0 ha
      have hlt : a < s.f.data.length := by rw [ha]; exact pos_lt h.inv _
      have hm0l := (List.getElem?_eq_some_iff.1 hm0).1
      have hel := Fifo.flatten_length hg.sz
      have hle : (q.items.length + els.length) * s.f.esize ≤ s.f.data.length := h.inv.len_le hg.room
      rw [h.len, Nat.add_mul, ← hfl, ← hel] at hle
      rw [if_pos hlt]
      have hne : ∀ m, m < q.items.flatten.length + els.flatten.length → m ≠ q.items.flatten.length + m0 → pos s.f k m ≠ a := by
        intro m h1 h2 h3
        exact h2 (pos_inj h.inv (by omega) (by omega) (h3.trans ha))
      have hinv : Inv { s.f with data := s.f.data.set a v } k :=
        ⟨h.inv.hmask, h.inv.hin, h.inv.hout, h.inv.hes, by simpa using h.inv.hdata, by simpa using h.inv.hbound, h.inv.hvalid⟩
      have hpos : ∀ m, pos { s.f with data := s.f.data.set a v } k m = pos s.f k m := by intro m; simp [pos]
      refine ⟨_, q, [], rfl, rfl, by simp, rfl, ⟨hinv, h.cap, h.len, h.sz, ?_, ?_, ?_, h.cnone, ?_⟩⟩
      · intro m hm
        show (s.f.data.set a v)[_]? = _
        rw [hpos, List.getElem?_set_ne (Ne.symm (hne m (by omega) (by omega)))]
        exact h.cont m hm
      · simp [hq]
      · intro p' els' e1 e2
        cases e1
        rw [hq] at e2; cases e2
        refine ⟨hg.n, hg.sz, hg.room, fun m w hw => ?_, fun x hx => ?_⟩
        · rw [hpos]
          have hml := (List.getElem?_eq_some_iff.1 hw).1
          show _ ∨ (s.f.data.set a v)[_]? = _
          by_cases hc : m = m0
          · subst hc
            rw [hw] at hm0; cases hm0
            exact .inr (by rw [← ha, List.getElem?_set_self hlt])
          · have := hne (q.items.flatten.length + m) (by omega) (by omega)
            rcases hg.cov m w hw with h1 | h1
            · refine .inl (List.mem_eraseIdx_iff_getElem?.2 ?_)
              obtain ⟨j, hj⟩ := List.mem_iff_getElem?.1 h1
              refine ⟨j, ?_, hj⟩
              rintro rfl
              rw [ht] at hj
              injection hj with hj; injection hj with hj _
              exact this hj.symm
            · exact .inr (by rw [List.getElem?_set_ne (Ne.symm this)]; exact h1)
        · obtain ⟨m, h1, h2⟩ := hg.todo x (List.mem_of_mem_eraseIdx hx)
          exact ⟨m, h1, by rw [hpos]; exact h2⟩
      · intro c n e1 e2
        have hc := h.cons c n e1 e2
        exact ⟨hc.cnt, hc.le, hc.size, hc.rest, hc.room, fun m hk hm => by rw [hpos]; exact hc.cov m hk hm,
          fun x hx => by obtain ⟨m, h1, h2, h3⟩ := hc.todo x hx; exact ⟨m, h1, h2, by rw [hpos]; exact h3⟩, hc.home⟩

theorem inEnd_fine (h : Good s k q) : Fine k s q (step s .inEnd) := by
  unfold step
  cases hp : s.prod with
  | none => exact .skip h
  | some p =>
    simp only
    by_cases ht : ¬ p.todo = []
    · rw [if_neg ht]; exact .skip h
    have ht := Classical.not_not.1 ht
    rw [if_pos ht]
    obtain ⟨els, hq⟩ : ∃ els, q.adding = some els := by
      cases hq : q.adding with
      | some els => exact ⟨els, rfl⟩
      | none => rw [h.pnone.2 hq] at hp; cases hp
    have hg := h.prod p els hp hq
    have hn := hg.n
    have hroom := hg.room
    have hlen := h.len
    have hsz := h.inv.size_lt
    have hin := h.inv.hin
    have hout := h.inv.hout
    have hval : Fifo.valid { s.f with inp := w64 (s.f.inp + p.n) } = Fifo.valid s.f + els.length := by
      rw [hn]; unfold Fifo.valid wsub w64 at *; simp only [W64] at *; omega
    have hstep : q.step (.inEnd p.n) = some { q with items := q.items ++ els, adding := none } := by
      simp only [Queue.step, hq]
      exact if_pos ⟨hn, by rw [h.cap, hn]; exact hroom⟩
    have hpos : ∀ m, pos { s.f with inp := w64 (s.f.inp + p.n) } k m = pos s.f k m := fun m => rfl
    refine ⟨_, _, [.inEnd p.n], rfl, rfl, rfl, Queue.run_one hstep, ⟨⟨h.inv.hmask, Nat.mod_lt _ (by simp [W64]), hout, h.inv.hes, h.inv.hdata, h.inv.hbound, ?_⟩,
      h.cap, ?_, ?_, ?_, ?_, ?_, h.cnone, ?_⟩⟩
    · show Fifo.valid { s.f with inp := w64 (s.f.inp + p.n) } ≤ s.f.mask + 1
      rw [hval, show s.f.mask + 1 = 2 ^ k from h.inv.hmask]; omega
    · show (q.items ++ els).length = Fifo.valid { s.f with inp := w64 (s.f.inp + p.n) }
      rw [hval, List.length_append, hlen]
    · intro e he
      rcases List.mem_append.1 he with he | he
      · exact h.sz e he
      · exact hg.sz e he
    · intro m hm
      show s.f.data[pos s.f k m]? = (q.items ++ els).flatten[m]?
      change m < (q.items ++ els).flatten.length at hm
      rw [List.flatten_append] at hm ⊢
      rw [List.getElem?_append]
      split
      · rename_i h1; exact h.cont m h1
      · rename_i h1
        rw [List.length_append] at hm
        have hlt : m - q.items.flatten.length < els.flatten.length := by omega
        rcases hg.cov (m - q.items.flatten.length) _ (List.getElem?_eq_getElem hlt) with h2 | h2
        · rw [ht] at h2; cases h2
        · rw [show q.items.flatten.length + (m - q.items.flatten.length) = m by omega] at h2
          rw [h2, List.getElem?_eq_getElem hlt]
    · simp [Sys.note]
    · intro p' els' e1; cases e1
    · intro c n e1 e2
      have hc := h.cons c n e1 e2
      refine ⟨hc.cnt, ?_, hc.size, hc.rest, hc.room, fun m hk hm => ?_, hc.todo, hc.home⟩
      · show n ≤ (q.items ++ els).length
        rw [List.length_append]; have := hc.le; omega
      · rcases hc.cov m hk hm with h1 | h1
        · exact .inl h1
        · refine .inr ?_
          rw [h1]
          show _ = (q.items ++ els).flatten[m]?
          rw [List.flatten_append, List.getElem?_append_left]
          have h2 : n * s.f.esize ≤ q.items.length * s.f.esize := Nat.mul_le_mul_right _ hc.le
          have h3 := flat_len h
          rw [hlen, ← h3] at h2
          have hm : m < n * s.f.esize := hm
          omega

theorem len_fine (h : Good s k q) : Fine k s q (some (s.note (.len (Fifo.valid s.f)))) := by
  have hq : q.step (.len (Fifo.valid s.f)) = some q := by
    simp only [Queue.step]; exact if_pos h.len.symm
  exact ⟨_, q, [_], rfl, rfl, rfl, Queue.run_one hq, ⟨h.inv, h.cap, h.len, h.sz, h.cont, h.pnone, h.prod, h.cnone, h.cons⟩⟩

/-! ## Steps of the reading side -/

theorem take_fine (h : Good s k q) (hc : s.cons = none) (keep : Bool) (buf : List Byte) {len n : Nat} {todo : List (Nat × Nat)} (hn : n = min len (Fifo.valid s.f))
    (hb : n * s.f.esize ≤ buf.length)
    (ht : ∀ x, x ∈ todo ↔ ∃ m, m < n * s.f.esize ∧ x = (m, (s.f.out % 2 ^ k * s.f.esize + m) % s.f.data.length)) :
    Fine k s q (some ({ s with cons := some ⟨if keep then .peek else .out, n, todo, buf, buf⟩ }.note (.outBegin len))) := by
  have hq : q.step (.outBegin len) = some { q with taking := some n } := by
    simp only [Queue.step]
    rw [if_pos (h.cnone.1 hc), h.len, hn]
  refine ⟨_, _, [_], rfl, rfl, rfl, Queue.run_one hq, ⟨h.inv, h.cap, h.len, h.sz, h.cont, h.pnone, h.prod, ?_, ?_⟩⟩
  · constructor <;> intro e <;> cases e
  · intro c n' e1 e2
    cases e1; cases e2
    refine ⟨rfl, ?_, rfl, fun _ _ _ => rfl, fun _ => hb, fun m _ hm => .inl ((ht _).2 ⟨m, hm, rfl⟩), fun x hx => ?_, fun inp e => ?_⟩
    · show n ≤ q.items.length
      rw [h.len]; omega
    · obtain ⟨m, h1, h2⟩ := (ht x).1 hx
      exact ⟨m, h1, Nat.lt_of_lt_of_le h1 hb, h2⟩
    · cases keep <;> cases e

theorem get_fine (h : Good s k q) (keep : Bool) {buf : List Byte} (hok : buf.length = s.f.esize) : Fine k s q (step s (.get keep buf)) := by
  unfold step
  cases hc : s.cons with
  | some c => exact .skip h
  | none =>
    simp only
    have hin := h.inv.hin
    have hout := h.inv.hout
    by_cases hf : Fifo.empty s.f = true
    · rw [if_pos hf]
      have he : s.f.inp = s.f.out := by simpa [Fifo.empty] using hf
      have h0 : Fifo.valid s.f = 0 := by unfold Fifo.valid wsub; simp only [W64] at *; omega
      have hq : q.step .getEmpty = some q := by
        simp only [Queue.step]
        exact if_pos ⟨h.cnone.1 hc, List.length_eq_zero_iff.1 (by rw [h.len, h0])⟩
      exact ⟨_, q, [_], rfl, rfl, rfl, Queue.run_one hq, ⟨h.inv, h.cap, h.len, h.sz, h.cont, h.pnone, h.prod, h.cnone, h.cons⟩⟩
    · rw [if_neg hf]
      have he : ¬ s.f.inp = s.f.out := by simpa [Fifo.empty] using hf
      have h0 : 1 ≤ Fifo.valid s.f := by unfold Fifo.valid wsub; simp only [W64] at *; omega
      refine take_fine h hc keep buf (by omega) (by omega) fun x => ?_
      have hr := slot_room h.inv s.f.out
      rw [mem_loads, slot_eq h.inv, Nat.one_mul]
      constructor
      · rintro ⟨j, h1, h2⟩
        exact ⟨j, h1, by rw [h2, Nat.zero_add, Nat.mod_eq_of_lt (a := _ + j) (by omega)]⟩
      · rintro ⟨j, h1, h2⟩
        exact ⟨j, h1, by rw [h2, Nat.zero_add, Nat.mod_eq_of_lt (a := _ + j) (by omega)]⟩

theorem out_fine (h : Good s k q) (keep : Bool) {buf : List Byte} {len : Nat} (hok : len * s.f.esize ≤ buf.length) :
    Fine k s q (step s (.out keep buf len)) := by
  unfold step
  cases hc : s.cons with
  | some c => exact .skip h
  | none =>
    have hv := valid_le h.inv
    refine take_fine h hc keep buf rfl (Nat.le_trans (Nat.mul_le_mul_right _ (Nat.min_le_left _ _)) hok) fun x => ?_
    exact outPlan_eq h.inv (by omega) _ x

theorem home_fine (h : Good s k q) : Fine k s q (step s .home) := by
  unfold step
  cases hc : s.cons with
  | some c => exact .skip h
  | none =>
    have hq : q.step .homeBegin = some { q with taking := some q.items.length } := by
      simp only [Queue.step]
      rw [if_pos (h.cnone.1 hc)]
    refine ⟨_, _, [_], rfl, rfl, rfl, Queue.run_one hq, ⟨h.inv, h.cap, h.len, h.sz, h.cont, h.pnone, h.prod, ?_, ?_⟩⟩
    · constructor <;> intro e <;> cases e
    · intro c n' e1 e2
      cases e1; cases e2
      refine ⟨h.len.symm, Nat.le_refl _, rfl, fun _ hk => ?_, fun hk => ?_, fun _ hk => ?_, fun x hx => (by cases hx), fun inp e => ?_⟩
      · rcases hk with hk | hk <;> cases hk
      · rcases hk with hk | hk <;> cases hk
      · rcases hk with hk | hk <;> cases hk
      · cases e
        show s.f.inp = w64 (s.f.out + q.items.length)
        rw [h.len]; exact h.inv.inp_eq

theorem load_fine (h : Good s k q) (i : Nat) : Fine k s q (step s (.load i)) := by
  unfold step
  cases hcs : s.cons with
  | none => exact .skip h
  | some c =>
    simp only
    cases ht : c.todo[i]? with
    | none => exact .skip h
    | some x =>
      obtain ⟨j, a⟩ := x
      simp only
      obtain ⟨n, hq⟩ : ∃ n, q.taking = some n := by
        cases hq : q.taking with
        | some n => exact ⟨n, rfl⟩
        | none => rw [h.cnone.2 hq] at hcs; cases hcs
      have hc := h.cons c n hcs hq
      have hfl := flat_len h
      obtain ⟨m0, hm0, hmb, hx⟩ := hc.todo (j, a) (List.mem_of_getElem? ht)
      injection hx with hj ha
      subst hj
      have hle : n * s.f.esize ≤ q.items.flatten.length := by
        rw [hfl, ← h.len]; exact Nat.mul_le_mul_right _ hc.le
      have hlt : a < s.f.data.length := by rw [ha]; exact pos_lt h.inv _
      have hrd := h.cont j (by omega)
      rw [← ha, List.getElem?_eq_getElem hlt] at hrd
      rw [List.getElem?_eq_getElem hlt]
      simp only
      rw [if_pos hmb]
      refine ⟨_, q, [], rfl, rfl, by simp, rfl, ⟨h.inv, h.cap, h.len, h.sz, h.cont, h.pnone, h.prod, ?_, ?_⟩⟩
      · simp [hq]
      · intro c' n' e1 e2
        cases e1
        rw [hq] at e2; cases e2
        refine ⟨hc.cnt, hc.le, ?_, fun m hk hm => ?_, hc.room, fun m hk hm => ?_, fun x hx => ?_, hc.home⟩
        · show (c.buf.set j _).length = _
          rw [List.length_set]; exact hc.size
        · show (c.buf.set j _)[m]? = _
          rw [List.getElem?_set_ne (by have hm : n * s.f.esize ≤ m := hm; omega)]
          exact hc.rest m hk hm
        · show _ ∨ (c.buf.set j _)[m]? = _
          by_cases he : m = j
          · subst he
            exact .inr (by rw [List.getElem?_set_self hmb]; exact hrd)
          · rw [List.getElem?_set_ne (Ne.symm he)]
            rcases hc.cov m hk hm with h1 | h1
            · refine .inl (List.mem_eraseIdx_iff_getElem?.2 ?_)
              obtain ⟨t, hj⟩ := List.mem_iff_getElem?.1 h1
              refine ⟨t, ?_, hj⟩
              rintro rfl
              rw [ht] at hj
              injection hj with hj; injection hj with hj _
              exact he hj.symm
            · exact .inr h1
        · obtain ⟨m, h1, h2, h3⟩ := hc.todo x (List.mem_of_mem_eraseIdx hx)
          exact ⟨m, h1, by show m < (c.buf.set j _).length; rw [List.length_set]; exact h2, h3⟩

/-- Moving `out` past `n` elements. -/
theorem drop_good (h : Good s k q) {n : Nat} (hn : n ≤ q.items.length) (log : List Ev) :
    Good { s with f := { s.f with out := w64 (s.f.out + n) }, cons := none, log } k { q with items := q.items.drop n, taking := none } := by
  have hv := valid_le h.inv
  have hlen := h.len
  have hsz := h.inv.size_lt
  have hin := h.inv.hin
  have hout := h.inv.hout
  have hfl := flat_len h
  have hval : Fifo.valid { s.f with out := w64 (s.f.out + n) } = Fifo.valid s.f - n := by
    unfold Fifo.valid wsub w64 at *; simp only [W64] at *; omega
  have hpos : ∀ m, pos { s.f with out := w64 (s.f.out + n) } k m = pos s.f k (n * s.f.esize + m) := by
    intro m
    show (w64 (s.f.out + n) % 2 ^ k * s.f.esize + m) % s.f.data.length = _
    rw [start_eq h.inv (by omega), pos_pos]
  have hfd := Fifo.flatten_drop h.sz n
  have hle : n * s.f.esize ≤ q.items.flatten.length := by rw [hfl, ← hlen]; exact Nat.mul_le_mul_right _ hn
  refine ⟨⟨h.inv.hmask, hin, Nat.mod_lt _ (by simp [W64]), h.inv.hes, h.inv.hdata, h.inv.hbound, ?_⟩, h.cap, ?_, ?_, ?_, h.pnone, ?_, ?_, ?_⟩
  · show Fifo.valid { s.f with out := w64 (s.f.out + n) } ≤ s.f.mask + 1
    rw [hval, show s.f.mask + 1 = 2 ^ k from h.inv.hmask]; omega
  · show (q.items.drop n).length = Fifo.valid { s.f with out := w64 (s.f.out + n) }
    rw [hval, List.length_drop, hlen]
  · intro e he; exact h.sz e (List.mem_of_mem_drop he)
  · intro m hm
    show s.f.data[pos { s.f with out := w64 (s.f.out + n) } k m]? = (q.items.drop n).flatten[m]?
    change m < (q.items.drop n).flatten.length at hm
    rw [hfd, List.length_drop] at hm
    rw [hpos, hfd, List.getElem?_drop]
    exact h.cont _ (by omega)
  · intro p els e1 e2
    have hg := h.prod p els e1 e2
    have hll : (q.items.drop n).flatten.length = q.items.flatten.length - n * s.f.esize := by rw [hfd, List.length_drop]
    have hp2 : ∀ m, pos { s.f with out := w64 (s.f.out + n) } k ((q.items.drop n).flatten.length + m) = pos s.f k (q.items.flatten.length + m) := by
      intro m; rw [hpos, hll]; congr 1; omega
    refine ⟨hg.n, hg.sz, ?_, fun m v hv => ?_, fun x hx => ?_⟩
    · have := hg.room
      show (q.items.drop n).length + _ ≤ _
      rw [List.length_drop]; omega
    · show (pos { s.f with out := w64 (s.f.out + n) } k ((q.items.drop n).flatten.length + m), v) ∈ _ ∨
        s.f.data[pos { s.f with out := w64 (s.f.out + n) } k ((q.items.drop n).flatten.length + m)]? = _
      rw [hp2]; exact hg.cov m v hv
    · obtain ⟨m, h1, h2⟩ := hg.todo x hx
      exact ⟨m, h1, h2.trans (hp2 m).symm⟩
  · simp
  · intro c n e1; cases e1

theorem outEnd_fine (h : Good s k q) : Fine k s q (step s .outEnd) := by
  unfold step
  cases hcs : s.cons with
  | none => exact .skip h
  | some c =>
    simp only
    by_cases ht : ¬ c.todo = []
    · rw [if_neg ht]; exact .skip h
    have ht := Classical.not_not.1 ht
    rw [if_pos ht]
    obtain ⟨n, hq⟩ : ∃ n, q.taking = some n := by
      cases hq : q.taking with
      | some n => exact ⟨n, rfl⟩
      | none => rw [h.cnone.2 hq] at hcs; cases hcs
    have hc := h.cons c n hcs hq
    have hn := hc.cnt
    have hfl := flat_len h
    have hbuf : c.kind = .peek ∨ c.kind = .out → c.buf = (q.items.take n).flatten ++ c.before.drop (q.items.take n).flatten.length := by
      intro hk
      have hle : n * s.f.esize ≤ q.items.flatten.length := by rw [hfl, ← h.len]; exact Nat.mul_le_mul_right _ hc.le
      have e1 := Fifo.flatten_take h.sz n
      have e2 : (q.items.take n).flatten.length = n * s.f.esize := by rw [e1, List.length_take]; omega
      apply List.ext_getElem?
      intro m
      rw [List.getElem?_append, e2]
      by_cases hm : m < n * s.f.esize
      · rw [if_pos hm, e1, List.getElem?_take, if_pos hm]
        rcases hc.cov m hk hm with h1 | h1
        · rw [ht] at h1; cases h1
        · exact h1
      · rw [if_neg hm, List.getElem?_drop, show n * s.f.esize + (m - n * s.f.esize) = m by omega]
        exact hc.rest m hk (by omega)
    cases hk : c.kind with
    | peek =>
      have hstep : q.step (.outEnd true c.n c.before c.buf) = some { q with taking := none } := by
        simp only [Queue.step, hq]
        rw [if_pos ⟨hn, hc.le, hbuf (.inl hk)⟩]; rfl
      refine ⟨_, _, [_], rfl, rfl, rfl, Queue.run_one hstep, ⟨h.inv, h.cap, h.len, h.sz, h.cont, h.pnone, h.prod, ?_, ?_⟩⟩
      · simp [Sys.note]
      · intro c n e1; cases e1
    | out =>
      have hstep : q.step (.outEnd false c.n c.before c.buf) = some { q with items := q.items.drop n, taking := none } := by
        simp only [Queue.step, hq]
        rw [if_pos ⟨hn, hc.le, hbuf (.inr hk)⟩]; rfl
      refine ⟨_, _, [_], rfl, rfl, rfl, Queue.run_one hstep, ?_⟩
      have := drop_good h hc.le (s.log ++ [.outEnd false c.n c.before c.buf])
      rw [← hn] at this ⊢
      exact this
    | home inp =>
      have hstep : q.step .homeEnd = some { q with items := q.items.drop n, taking := none } := by
        simp only [Queue.step, hq]
      refine ⟨_, _, [_], rfl, rfl, rfl, Queue.run_one hstep, ?_⟩
      have := drop_good h hc.le (s.log ++ [.homeEnd])
      rw [← hc.home inp hk] at this
      exact this

theorem step_fine (h : Good s k q) {a : Act} (hok : a.Ok s.f.esize) : Fine k s q (step s a) := by
  cases a with
  | put v => exact put_fine h hok
  | inn elems len => exact inn_fine h hok
  | store i => exact store_fine h i
  | inEnd => exact inEnd_fine h
  | lenP =>
    show Fine k s q (if s.prod.isSome then some s else _)
    split
    · exact .skip h
    · exact len_fine h
  | get keep buf => exact get_fine h keep hok
  | out keep buf len => exact out_fine h keep hok
  | home => exact home_fine h
  | load i => exact load_fine h i
  | outEnd => exact outEnd_fine h
  | lenC =>
    show Fine k s q (if s.cons.isSome then some s else _)
    split
    · exact .skip h
    · exact len_fine h

theorem Queue.run_append {q q' : Queue} {l l' : List Ev} (h : q.run l = some q') : q.run (l ++ l') = q'.run l' := by
  induction l generalizing q with
  | nil => cases h; rfl
  | cons e l ih =>
    obtain ⟨q1, h1, h2⟩ := Option.bind_eq_some_iff.1 h
    show (q.step e).bind _ = _
    rw [h1]
    exact ih h2

theorem run_fine (h : Good s k q) {l : List Act} (hok : ∀ a ∈ l, a.Ok s.f.esize) : Fine k s q (run s l) := by
  induction l generalizing s q with
  | nil => exact .skip h
  | cons a l ih =>
    obtain ⟨s1, q1, ev1, h1, h2, h3, h4, h5⟩ := step_fine h (hok a (List.mem_cons_self))
    obtain ⟨s2, q2, ev2, g1, g2, g3, g4, g5⟩ := ih h5 (fun b hb => by rw [h2]; exact hok b (List.mem_cons_of_mem _ hb))
    refine ⟨s2, q2, ev1 ++ ev2, ?_, g2.trans h2, by rw [g3, h3, List.append_assoc], by rw [Queue.run_append h4]; exact g4, g5⟩
    show (step s a).bind _ = _
    rw [h1]; exact g1

end Bfdev.Spsc
