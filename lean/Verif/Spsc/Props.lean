import Verif.Fifo.Props
import Verif.Spsc.Lemmas
/-!
C108: one thread puts in, another takes out, no lock.
-/
namespace Bfdev.Spsc
open Fifo (Fifo fresh)

theorem fresh_good {k esize c : Nat} {data : List Byte} (hc : c < 2 ^ 64) (he : 1 ≤ esize) (hd : data.length = 2 ^ k * esize) (hb : data.length < 2 ^ 63) :
    Good (init (fresh k esize c data)) k (Queue.new (2 ^ k)) := by
  have h := Fifo.fresh_rep (k := k) (esize := esize) hc he hd hb
  refine ⟨h.inv, rfl, h.hlen, fun e he => (by cases he), fun m hm => (by cases hm), by simp [init, Queue.new], fun p els e => (by cases e),
    by simp [init, Queue.new], fun p els e => (by cases e)⟩

/-- **C108**: a fifo of `2^k` elements, its free-running counters anywhere, is used by one thread that puts in and one that takes out. Whatever the order of their
single accesses to memory, and in whatever order the copies go through their bytes, no access leaves the fifo's block or a caller's buffer, and what both threads see
is what a bounded queue shows whose calls decide their count when they begin and move their elements, all at once, when they return. -/
theorem two_threads_one_queue (k esize c : Nat) (data : List Byte) (hc : c < 2 ^ 64) (he : 1 ≤ esize) (hd : data.length = 2 ^ k * esize) (hb : data.length < 2 ^ 63)
    (acts : List Act) (hok : ∀ a ∈ acts, a.Ok esize) :
    ∃ s q, run (init (fresh k esize c data)) acts = some s ∧ (Queue.new (2 ^ k)).run s.log = some q := by
  obtain ⟨s, q, evs, h1, -, h3, h4, -⟩ := run_fine (fresh_good hc he hd hb) hok
  exact ⟨s, q, h1, by rw [h3]; exact h4⟩

/-! ## Nothing is lost, doubled or torn -/

/-- All elements handed in have the element size. -/
def Sized (esize : Nat) (l : List Ev) : Prop := ∀ elems len, Ev.inBegin elems len ∈ l → ∀ e ∈ elems, e.length = esize

theorem Sized.note {esize : Nat} {l : List Ev} {e : Ev} (h : Sized esize l) (he : ∀ elems len, e = .inBegin elems len → ∀ x ∈ elems, x.length = esize) :
    Sized esize (l ++ [e]) := by
  intro elems len hm
  rcases List.mem_append.1 hm with hm | hm
  · exact h elems len hm
  · exact he elems len (List.mem_singleton.1 hm).symm

theorem step_sized {esize : Nat} {s s' : Sys} {a : Act} (hok : a.Ok esize) (h : Sized esize s.log) (e : step s a = some s') : Sized esize s'.log := by
  cases a with
  | put v =>
    simp only [step] at e
    split at e
    · cases e; exact h
    · split at e <;> cases e
      · exact h.note (fun _ _ e => by cases e)
      · exact h.note (fun _ _ e => by cases e; intro x hx; rw [List.mem_singleton.1 hx]; exact hok)
  | inn elems len =>
    simp only [step] at e
    split at e
    · cases e; exact h
    · obtain ⟨todo, -, e⟩ := Option.map_eq_some_iff.1 e
      subst e
      exact h.note (fun _ _ e => by cases e; exact hok.1)
  | store i =>
    simp only [step] at e
    split at e
    · cases e; exact h
    · split at e
      · cases e; exact h
      · split at e <;> cases e
        exact h
  | inEnd =>
    simp only [step] at e
    split at e
    · cases e; exact h
    · split at e <;> cases e
      · exact h.note (fun _ _ e => by cases e)
      · exact h
  | lenP =>
    simp only [step] at e
    split at e <;> cases e
    · exact h
    · exact h.note (fun _ _ e => by cases e)
  | get keep buf =>
    simp only [step] at e
    split at e
    · cases e; exact h
    · split at e <;> cases e
      · exact h.note (fun _ _ e => by cases e)
      · exact h.note (fun _ _ e => by cases e)
  | out keep buf len =>
    simp only [step] at e
    split at e <;> cases e
    · exact h
    · exact h.note (fun _ _ e => by cases e)
  | home =>
    simp only [step] at e
    split at e <;> cases e
    · exact h
    · exact h.note (fun _ _ e => by cases e)
  | load i =>
    simp only [step] at e
    split at e
    · cases e; exact h
    · split at e
      · cases e; exact h
      · split at e
        · cases e
        · split at e <;> cases e
          exact h
  | outEnd =>
    simp only [step] at e
    split at e
    · cases e; exact h
    · split at e
      · split at e <;> cases e <;> exact h.note (fun _ _ e => by cases e)
      · cases e; exact h
  | lenC =>
    simp only [step] at e
    split at e <;> cases e
    · exact h
    · exact h.note (fun _ _ e => by cases e)

theorem run_sized {esize : Nat} {s s' : Sys} {l : List Act} (hok : ∀ a ∈ l, a.Ok esize) (h : Sized esize s.log) (e : run s l = some s') : Sized esize s'.log := by
  induction l generalizing s with
  | nil => cases e; exact h
  | cons a l ih =>
    obtain ⟨s1, e1, e2⟩ := Option.bind_eq_some_iff.1 e
    exact ih (fun b hb => hok b (List.mem_cons_of_mem _ hb)) (step_sized (hok a List.mem_cons_self) h e1) e2

theorem take_len_take {α} (l : List α) (n : Nat) : l.take (l.take n).length = l.take n := by
  rw [List.length_take]
  rcases Nat.le_total n l.length with h | h
  · rw [Nat.min_eq_left h]
  · rw [Nat.min_eq_right h, List.take_of_length_le h, List.take_of_length_le (Nat.le_refl _)]

theorem queue_flow {esize : Nat} {l : List Ev} {q q' : Queue} {cur : List (List Byte)} (h : q.run l = some q') (hs : Sized esize l) (hh : Ev.homeEnd ∉ l)
    (hq : ∀ e ∈ q.items, e.length = esize) (hcur : ∀ els, q.adding = some els → (∀ e ∈ els, e.length = esize) ∧ cur.take els.length = els) :
    received esize l ++ q'.items.flatten = q.items.flatten ++ (sent cur l).flatten := by
  induction l generalizing q cur with
  | nil => cases h; simp [received, sent]
  | cons e l ih =>
    obtain ⟨q1, h1, h2⟩ := Option.bind_eq_some_iff.1 h
    have hs' : Sized esize l := fun a b hm => hs a b (List.mem_cons_of_mem _ hm)
    have hh' : Ev.homeEnd ∉ l := fun hm => hh (List.mem_cons_of_mem _ hm)
    cases e with
    | putFull v =>
      simp only [Queue.step] at h1
      split at h1 <;> cases h1
      have r := ih h2 hs' hh' hq hcur
      exact r
    | inBegin elems len =>
      simp only [Queue.step] at h1
      split at h1 <;> cases h1
      have r := ih (cur := elems) h2 hs' hh' hq fun els e => by
        cases e
        exact ⟨fun e he => hs elems len List.mem_cons_self e (List.mem_of_mem_take he), take_len_take _ _⟩
      exact r
    | inEnd ret =>
      simp only [Queue.step] at h1
      split at h1
      · cases h1
      · rename_i els ha
        split at h1 <;> cases h1
        rename_i hr
        obtain ⟨c1, c2⟩ := hcur els ha
        have := ih (cur := []) h2 hs' hh' (fun e he => by
          rcases List.mem_append.1 he with he | he
          · exact hq e he
          · exact c1 e he) (fun els e => by cases e)
        simp only [received, sent, hr.1, c2]
        rw [this]
        simp
    | getEmpty =>
      simp only [Queue.step] at h1
      split at h1 <;> cases h1
      have r := ih h2 hs' hh' hq hcur
      exact r
    | outBegin len =>
      simp only [Queue.step] at h1
      split at h1 <;> cases h1
      have r := ih h2 hs' hh' hq hcur
      exact r
    | outEnd keep ret before after =>
      simp only [Queue.step] at h1
      split at h1
      · cases h1
      · rename_i n ha
        split at h1 <;> cases h1
        rename_i hr
        obtain ⟨r1, r2, r3⟩ := hr
        cases keep with
        | true =>
          have r := ih h2 hs' hh' hq hcur
          exact r
        | false =>
          have := ih h2 hs' hh' (fun e he => hq e (List.mem_of_mem_drop he)) hcur
          simp only [Bool.false_eq_true, if_false] at this
          have hlen : ((q.items.take n).flatten).length = n * esize := by
            rw [Fifo.flatten_length (e := esize) (fun e he => hq e (List.mem_of_mem_take he)), List.length_take, Nat.min_eq_left r2]
          have htk : after.take (ret * esize) = (q.items.take n).flatten := by
            rw [r3, r1, ← hlen, List.take_left]
          simp only [received, sent, htk]
          rw [List.append_assoc, this, ← List.append_assoc, ← List.flatten_append, List.take_append_drop]
    | homeBegin =>
      simp only [Queue.step] at h1
      split at h1 <;> cases h1
      have r := ih h2 hs' hh' hq hcur
      exact r
    | homeEnd => exact absurd List.mem_cons_self hh
    | len n =>
      simp only [Queue.step] at h1
      split at h1 <;> cases h1
      have r := ih h2 hs' hh' hq hcur
      exact r

/-- C108. What the reading side got, followed by at most `2^k` elements that are still in the fifo, is byte for byte what the writing side got rid of, in order:
nothing is lost, doubled, reordered or torn (unless the reader throws the content away with `bfdev_fifo_homing`). -/
theorem nothing_lost (k esize c : Nat) (data : List Byte) (hc : c < 2 ^ 64) (he : 1 ≤ esize) (hd : data.length = 2 ^ k * esize) (hb : data.length < 2 ^ 63)
    (acts : List Act) (hok : ∀ a ∈ acts, a.Ok esize) {s : Sys} (hr : run (init (fresh k esize c data)) acts = some s) (hh : Ev.homeEnd ∉ s.log) :
    ∃ rest : List (List Byte), rest.length ≤ 2 ^ k ∧ received esize s.log ++ rest.flatten = (sent [] s.log).flatten := by
  obtain ⟨s', q, evs, h1, -, h3, h4, h5⟩ := run_fine (fresh_good hc he hd hb) hok
  rw [hr] at h1; cases h1
  have hs := run_sized hok (s := init (fresh k esize c data)) (fun _ _ h => by cases h) hr
  refine ⟨q.items, by rw [h5.len]; exact valid_le h5.inv, ?_⟩
  have hlog : s.log = evs := h3
  rw [hlog] at hs hh ⊢
  have := queue_flow (cur := []) h4 hs hh (fun e he => by cases he) (fun els e => by cases e)
  simpa [Queue.new] using this

/-! ## The threads do not meet -/

/-- C108. At no moment is the writing side about to store a byte that the reading side is about to load. -/
theorem no_byte_shared (k esize c : Nat) (data : List Byte) (hc : c < 2 ^ 64) (he : 1 ≤ esize) (hd : data.length = 2 ^ k * esize) (hb : data.length < 2 ^ 63)
    (acts : List Act) (hok : ∀ a ∈ acts, a.Ok esize) {s : Sys} (hr : run (init (fresh k esize c data)) acts = some s) {p : PCall} {r : CCall}
    (hp : s.prod = some p) (hc' : s.cons = some r) : ∀ x ∈ p.todo, ∀ y ∈ r.todo, x.1 ≠ y.2 := by
  obtain ⟨s', q, evs, h1, -, -, -, h⟩ := run_fine (fresh_good hc he hd hb) hok
  rw [hr] at h1; cases h1
  obtain ⟨els, hq⟩ : ∃ els, q.adding = some els := by
    cases hq : q.adding with
    | some els => exact ⟨els, rfl⟩
    | none => rw [h.pnone.2 hq] at hp; cases hp
  obtain ⟨n, hn⟩ : ∃ n, q.taking = some n := by
    cases hq : q.taking with
    | some n => exact ⟨n, rfl⟩
    | none => rw [h.cnone.2 hq] at hc'; cases hc'
  have hg := h.prod p els hp hq
  have hcg := h.cons r n hc' hn
  have hfl := flat_len h
  have hel := Fifo.flatten_length hg.sz
  have hle : (q.items.length + els.length) * s.f.esize ≤ s.f.data.length := h.inv.len_le hg.room
  rw [h.len, Nat.add_mul, ← hfl, ← hel] at hle
  have hle2 : n * s.f.esize ≤ q.items.flatten.length := by rw [hfl, ← h.len]; exact Nat.mul_le_mul_right _ hcg.le
  intro x hx y hy e
  obtain ⟨m, m1, m2⟩ := hg.todo x hx
  obtain ⟨j, j1, -, j3⟩ := hcg.todo y hy
  have := (List.getElem?_eq_some_iff.1 m1).1
  rw [m2, j3] at e
  have := pos_inj h.inv (by omega) (by omega) e
  omega

/-- The other side's steps do not touch a call. -/
theorem step_prod {s s' : Sys} {a : Act} (ha : a.writes = false) (e : step s a = some s') : s'.prod = s.prod := by
  cases a <;> simp only [Act.writes, Bool.true_eq_false] at ha <;> simp only [step] at e
  case get => (repeat' split at e) <;> cases e <;> rfl
  case out => (repeat' split at e) <;> cases e <;> rfl
  case home => (repeat' split at e) <;> cases e <;> rfl
  case load => (repeat' split at e) <;> cases e <;> rfl
  case outEnd => (repeat' split at e) <;> cases e <;> rfl
  case lenC => (repeat' split at e) <;> cases e <;> rfl

theorem step_cons {s s' : Sys} {a : Act} (ha : a.writes = true) (e : step s a = some s') : s'.cons = s.cons := by
  cases a <;> simp only [Act.writes, Bool.false_eq_true] at ha <;> simp only [step] at e
  case put => (repeat' split at e) <;> cases e <;> rfl
  case inn =>
    split at e
    · cases e; rfl
    · obtain ⟨todo, -, e⟩ := Option.map_eq_some_iff.1 e
      subst e; rfl
  case store => (repeat' split at e) <;> cases e <;> rfl
  case inEnd => (repeat' split at e) <;> cases e <;> rfl
  case lenP => (repeat' split at e) <;> cases e <;> rfl

/-- C108. A call of the writing side never waits: with one step per byte and one more it has returned, whatever the reading side does in between. -/
theorem writer_never_waits {s s' : Sys} {p : PCall} (hp : s.prod = some p) {acts : List Act} (hr : run s acts = some s')
    (hw : acts.filter Act.writes = List.replicate p.todo.length (.store 0) ++ [.inEnd]) : s'.prod = none ∧ .inEnd p.n ∈ s'.log := by
  have mono : ∀ (l : List Act) {s s' : Sys} {e : Ev}, run s l = some s' → e ∈ s.log → e ∈ s'.log := by
    intro l
    induction l with
    | nil => intro s s' e h hm; cases h; exact hm
    | cons a l ih =>
      intro s s' e h hm
      obtain ⟨s1, e1, e2⟩ := Option.bind_eq_some_iff.1 h
      refine ih e2 ?_
      cases a <;> simp only [step] at e1
      case inn =>
        split at e1
        · cases e1; exact hm
        · obtain ⟨todo, -, e1⟩ := Option.map_eq_some_iff.1 e1
          subst e1; exact List.mem_append_left _ hm
      all_goals
        (repeat' split at e1) <;> cases e1 <;> first | exact hm | exact List.mem_append_left _ hm
  have idle : ∀ (l : List Act) {s s' : Sys}, l.filter Act.writes = [] → run s l = some s' → s'.prod = s.prod := by
    intro l
    induction l with
    | nil => intro s s' _ h; cases h; rfl
    | cons a l ih =>
      intro s s' hf h
      obtain ⟨s1, e1, e2⟩ := Option.bind_eq_some_iff.1 h
      have ha : a.writes = false := by
        cases ha : a.writes with
        | false => rfl
        | true => rw [List.filter_cons_of_pos ha] at hf; cases hf
      rw [List.filter_cons_of_neg (by simp [ha])] at hf
      rw [ih hf e2, step_prod ha e1]
  induction acts generalizing s p with
  | nil =>
    have := congrArg List.length hw
    simp at this
  | cons a l ih =>
    obtain ⟨s1, e1, e2⟩ := Option.bind_eq_some_iff.1 hr
    cases ha : a.writes with
    | false =>
      rw [List.filter_cons_of_neg (by simp [ha])] at hw
      exact ih ((step_prod ha e1).trans hp) e2 hw
    | true =>
      rw [List.filter_cons_of_pos ha] at hw
      cases ht : p.todo with
      | nil =>
        rw [ht] at hw
        injection hw with h1 h2
        subst h1
        simp only [step, hp, ht, if_true] at e1
        cases e1
        exact ⟨idle l h2 e2, mono l e2 (List.mem_append_right _ List.mem_cons_self)⟩
      | cons x t =>
        rw [ht] at hw
        injection hw with h1 h2
        subst h1
        simp only [step, hp, ht, List.getElem?_cons_zero, List.eraseIdx_zero, List.tail_cons] at e1
        split at e1
        · cases e1
          exact ih (p := { p with todo := t }) rfl e2 h2
        · cases e1

/-- C108. Nor does a call of the reading side. -/
theorem reader_never_waits {s s' : Sys} {c : CCall} (hc : s.cons = some c) {acts : List Act} (hr : run s acts = some s')
    (hw : acts.filter (fun a => !a.writes) = List.replicate c.todo.length (.load 0) ++ [.outEnd]) : s'.cons = none := by
  have idle : ∀ (l : List Act) {s s' : Sys}, l.filter (fun a => !a.writes) = [] → run s l = some s' → s'.cons = s.cons := by
    intro l
    induction l with
    | nil => intro s s' _ h; cases h; rfl
    | cons a l ih =>
      intro s s' hf h
      obtain ⟨s1, e1, e2⟩ := Option.bind_eq_some_iff.1 h
      have ha : a.writes = true := by
        cases ha : a.writes with
        | true => rfl
        | false => rw [List.filter_cons_of_pos (by simp [ha])] at hf; cases hf
      rw [List.filter_cons_of_neg (by simp [ha])] at hf
      rw [ih hf e2, step_cons ha e1]
  induction acts generalizing s c with
  | nil =>
    have := congrArg List.length hw
    simp at this
  | cons a l ih =>
    obtain ⟨s1, e1, e2⟩ := Option.bind_eq_some_iff.1 hr
    cases ha : a.writes with
    | true =>
      rw [List.filter_cons_of_neg (by simp [ha])] at hw
      exact ih ((step_cons ha e1).trans hc) e2 hw
    | false =>
      rw [List.filter_cons_of_pos (by simp [ha])] at hw
      cases ht : c.todo with
      | nil =>
        rw [ht] at hw
        injection hw with h1 h2
        subst h1
        simp only [step, hc, ht, if_true] at e1
        rw [idle l h2 e2]
        split at e1 <;> cases e1 <;> rfl
      | cons x t =>
        rw [ht] at hw
        injection hw with h1 h2
        subst h1
        simp only [step, hc, ht, List.getElem?_cons_zero, List.eraseIdx_zero, List.tail_cons] at e1
        split at e1
        · cases e1
        · split at e1
          · cases e1
            exact ih (c := { c with todo := t, buf := c.buf.set x.1 _ }) rfl e2 h2
          · cases e1

/-! ## Examples -/

/-- Two elements of two bytes, counters about to wrap, the threads in turns, the bytes copied backwards. -/
def sample : List Act := [.put [1, 2], .get false [9, 9], .store 1, .lenC, .store 0, .inEnd, .get false [9, 9], .inn [[3, 4], [5, 6]] 2, .load 1, .store 1, .load 0,
  .store 0, .outEnd, .inEnd, .lenP, .out true [7, 7, 7, 7, 7, 7] 3, .put [8, 8], .load 0, .store 1, .load 0, .outEnd]

example : ∀ a ∈ sample, a.Ok 2 := by simp [sample, Act.Ok]

example : (run (init (fresh 1 2 (2 ^ 64 - 1) [0, 0, 0, 0])) sample).map (·.log) =
    some [.inBegin [[1, 2]] 1, .getEmpty, .len 0, .inEnd 1, .outBegin 1, .inBegin [[3, 4], [5, 6]] 2, .outEnd false 1 [9, 9] [1, 2], .inEnd 1, .len 1,
      .outBegin 3, .inBegin [[8, 8]] 1, .outEnd true 1 [7, 7, 7, 7, 7, 7] [3, 4, 7, 7, 7, 7]] := by decide +kernel

end Bfdev.Spsc
