import Verif.Titer.Model
import Verif.Rbtree.Iter
import Verif.Rbtree.Props
import Verif.Heap.Props
/-!
C93: a tree can be torn down in one removal-safe post-order walk.
-/
set_option linter.unusedSimpArgs false
namespace Bfdev.Titer
open Rbtree (Tree)

/-- Memory holds the tree `t` (colours ignored) under parent `p`, and all its nodes are live. -/
def Rep (m : Mem) (p : Addr) : Tree → Prop
  | .nil => True
  | .node l a _ r => a ≠ 0 ∧ m.live a = true ∧ m.par a = p ∧ m.left a = l.top ∧ m.right a = r.top ∧ Rep m a l ∧ Rep m a r

/-- The memory after giving back the nodes of `L` chosen by `kill`. -/
def Mem.clear (m : Mem) (kill : Addr → Bool) (L : List Addr) : Mem := { m with live := fun b => m.live b && !(kill b && L.contains b) }

theorem clear_nil (m : Mem) (kill : Addr → Bool) : m.clear kill [] = m := by simp [Mem.clear]
theorem clear_append (m : Mem) (kill : Addr → Bool) (L K : List Addr) : (m.clear kill L).clear kill K = m.clear kill (L ++ K) := by
  simp only [Mem.clear, Mem.mk.injEq, true_and]
  funext b
  simp only [List.contains_eq_mem, List.mem_append]
  cases m.live b <;> cases kill b <;> simp [Bool.or_comm]
theorem clear_one (m : Mem) (kill : Addr → Bool) (a : Addr) : m.clear kill [a] = if kill a then m.free a else m := by
  cases h : kill a
  · simp only [Bool.false_eq_true, if_false]
    cases m; simp only [Mem.clear, Mem.mk.injEq, true_and]
    funext b
    by_cases e : b = a
    · simp [e, h]
    · simp [e]
  · simp only [if_true, Mem.free, Mem.clear, Mem.mk.injEq, true_and]
    funext b
    by_cases e : b = a
    · simp [e, h]
    · simp [e]

/-- The tree is still there if none of its nodes was given back. -/
theorem rep_clear {m : Mem} {kill : Addr → Bool} {L : List Addr} : ∀ {t : Tree} {p : Addr}, Rep m p t → (∀ a ∈ t.postorder, a ∉ L) → Rep (m.clear kill L) p t
  | .nil, _, _, _ => trivial
  | .node l a c r, p, ⟨h1, h2, h3, h4, h5, h6, h7⟩, hn => by
    simp only [Tree.postorder, List.mem_append, List.mem_singleton] at hn
    refine ⟨h1, ?_, h3, h4, h5, rep_clear h6 (fun b hb => hn b (by simp [hb])), rep_clear h7 (fun b hb => hn b (by simp [hb]))⟩
    have := hn a (by simp)
    simp [Mem.clear, h2, this]

theorem live_clear {m : Mem} {kill : Addr → Bool} {L : List Addr} {a : Addr} (h : m.live a = true) (hn : a ∉ L) : (m.clear kill L).live a = true := by
  simp [Mem.clear, h, hn]

theorem rd_ok {m : Mem} {f : Addr → Addr} {a : Addr} (h0 : a ≠ 0) (h : m.live a = true) : m.rd f a = some (f a) := by simp [Mem.rd, h0, h]

theorem top_zero {m : Mem} {p : Addr} {t : Tree} (h : Rep m p t) : t.top = 0 ↔ t = .nil := by
  cases t with
  | nil => simp [Tree.top]
  | node l a c r => simp [Tree.top, h.1]

theorem top_post {t : Tree} (h : t ≠ .nil) : t.top ∈ t.postorder := by
  cases t with
  | nil => exact absurd rfl h
  | node l a c r => simp [Tree.top, Tree.postorder]

theorem leftDeep_ok {m : Mem} : ∀ {t : Tree} {p : Addr} {fuel : Nat}, Rep m p t → t.height < fuel → leftDeep m fuel t.top = some (t.postorder.headD 0)
  | .nil, _, fuel + 1, _, _ => by simp [leftDeep, Tree.top, Tree.postorder]
  | .node l a c r, p, fuel + 1, ⟨h1, h2, h3, h4, h5, h6, h7⟩, hf => by
    simp only [Tree.height] at hf
    have hl := leftDeep_ok (fuel := fuel) h6 (by omega)
    have hr := leftDeep_ok (fuel := fuel) h7 (by omega)
    rw [show (Tree.node l a c r).top = a from rfl]
    simp only [leftDeep, if_neg h1, rd_ok h1 h2, h4, h5, Option.bind_eq_bind, Option.bind_some]
    rw [show (Tree.node l a c r).postorder = l.postorder ++ (r.postorder ++ [a]) by simp [Tree.postorder]]
    by_cases hln : l = .nil
    · subst hln
      rw [if_neg (by simp [Tree.top])]
      by_cases hrn : r = .nil
      · subst hrn
        simp [Tree.top, Tree.postorder]
      · rw [if_pos (fun e => hrn ((top_zero h7).1 e)), hr]
        rw [show Tree.nil.postorder = [] from rfl, List.nil_append, Rbtree.headD_append_left (Rbtree.postorder_ne hrn)]
    · rw [if_pos (fun e => hln ((top_zero h6).1 e)), hl, Rbtree.headD_append_left (Rbtree.postorder_ne hln)]

/-- The walk passes a subtree: if, whatever nodes of the subtree have been given back, the successor of its top node is `nx`, the walk visits the
subtree in post-order and goes on at `nx`. -/
theorem postSafe_sub {kill : Addr → Bool} {deep : Nat} : ∀ (t : Tree) (m : Mem) (p nx : Addr) (fuel : Nat), Rep m p t → t ≠ .nil → t.postorder.Nodup → t.height < deep →
    (∀ L, (∀ a ∈ L, a ∈ t.postorder ∧ a ≠ t.top) → postNext (m.clear kill L) deep t.top = some nx) →
    postSafe kill deep (t.postorder.length + fuel) m (t.postorder.headD 0) =
      (postSafe kill deep fuel (m.clear kill t.postorder) nx).map fun r => (t.postorder ++ r.1, r.2)
  | .nil, _, _, _, _, _, h, _, _, _ => absurd rfl h
  | .node l a c r, m, p, nx, fuel, ⟨h1, h2, h3, h4, h5, h6, h7⟩, _, hnd, hd, hnx => by
    have hpo : (Tree.node l a c r).postorder = l.postorder ++ (r.postorder ++ [a]) := by simp [Tree.postorder]
    rw [hpo] at hnd ⊢
    simp only [Tree.height] at hd
    have hal : a ∉ l.postorder := by simp only [List.nodup_append, List.mem_append, List.mem_singleton] at hnd; grind
    have har : a ∉ r.postorder := by simp only [List.nodup_append, List.mem_append, List.mem_singleton] at hnd; grind
    have hlr : ∀ b ∈ r.postorder, b ∉ l.postorder := by simp only [List.nodup_append, List.mem_append, List.mem_singleton] at hnd; grind
    have hln : l.postorder.Nodup := by simp only [List.nodup_append] at hnd; exact hnd.1
    have hrn : r.postorder.Nodup := by simp only [List.nodup_append] at hnd; exact hnd.2.1.1
    -- the top node, after both sides
    have top : ∀ fuel, postSafe kill deep (fuel + 1) (m.clear kill (l.postorder ++ r.postorder)) a =
        (postSafe kill deep fuel (m.clear kill (l.postorder ++ (r.postorder ++ [a]))) nx).map fun r => (a :: r.1, r.2) := by
      intro fuel
      have e := hnx (l.postorder ++ r.postorder) (by
        intro b hb
        rw [hpo]
        simp only [List.mem_append, List.mem_singleton, Tree.top] at hb ⊢
        exact ⟨by grind, by grind⟩)
      rw [postSafe, if_neg h1, show a = (Tree.node l a c r).top from rfl, e, ← clear_one, clear_append]
      simp only [Tree.top, List.append_assoc, Option.bind_eq_bind, Option.bind_some]
      cases postSafe kill deep fuel (m.clear kill (l.postorder ++ (r.postorder ++ [a]))) nx <;> rfl
    -- the right side, after the left one
    have right : ∀ fuel, postSafe kill deep (r.postorder.length + (fuel + 1)) (m.clear kill l.postorder) ((r.postorder ++ [a]).headD 0) =
        (postSafe kill deep fuel (m.clear kill (l.postorder ++ (r.postorder ++ [a]))) nx).map fun s => (r.postorder ++ [a] ++ s.1, s.2) := by
      intro fuel
      by_cases hr : r = .nil
      · subst hr
        have := top fuel
        simp only [show Tree.nil.postorder = [] from rfl, List.append_nil, List.nil_append, List.length_nil, Nat.zero_add, List.headD_cons] at this ⊢
        rw [this]; rfl
      · rw [Rbtree.headD_append_left (Rbtree.postorder_ne hr)]
        have hrt : r.top ≠ 0 := fun e => hr ((top_zero h7).1 e)
        rw [postSafe_sub r (m.clear kill l.postorder) a a (fuel + 1) (rep_clear h7 hlr) hr hrn (by omega) (by
          intro L hL
          rw [clear_append]
          have hlive : (m.clear kill (l.postorder ++ L)).live r.top = true := by
            have hlv : m.live r.top = true := by
              cases r with
              | nil => exact absurd rfl hr
              | node _ _ _ _ => exact h7.2.1
            refine live_clear hlv ?_
            simp only [List.mem_append, not_or]
            exact ⟨hlr _ (top_post hr), fun e => (hL _ e).2 rfl⟩
          have hpar : m.par r.top = a := by
            cases r with
            | nil => exact absurd rfl hr
            | node _ _ _ _ => exact h7.2.2.1
          have hla : (m.clear kill (l.postorder ++ L)).live a = true := by
            refine live_clear h2 ?_
            simp only [List.mem_append, not_or]
            exact ⟨hal, fun e => har (hL _ e).1⟩
          have hne : r.top ≠ l.top := by
            by_cases hl : l = .nil
            · rw [hl]; exact hrt
            · exact fun e => hlr _ (top_post hr) (e ▸ top_post hl)
          have e1 : (m.clear kill (l.postorder ++ L)).par r.top = a := hpar
          have e2 : (m.clear kill (l.postorder ++ L)).left a = l.top := h4
          simp only [postNext, if_neg hrt, rd_ok hrt hlive, e1, if_neg h1, rd_ok h1 hla, e2, Option.bind_eq_bind, Option.bind_some]
          rw [if_pos hne]), clear_append, top fuel]
        rw [Option.map_map]
        congr 1
        funext s
        simp
    by_cases hl : l = .nil
    · subst hl
      have := right fuel
      simp only [show Tree.nil.postorder = [] from rfl, List.nil_append, clear_nil] at this ⊢
      rw [show (r.postorder ++ [a]).length + fuel = r.postorder.length + (fuel + 1) by simp; omega]
      exact this
    · have hlt : l.top ≠ 0 := fun e => hl ((top_zero h6).1 e)
      rw [Rbtree.headD_append_left (Rbtree.postorder_ne hl)]
      rw [show (l.postorder ++ (r.postorder ++ [a])).length + fuel = l.postorder.length + (r.postorder.length + (fuel + 1)) by simp; omega]
      rw [postSafe_sub l m a ((r.postorder ++ [a]).headD 0) (r.postorder.length + (fuel + 1)) h6 hl hln (by omega) (by
        intro L hL
        have hlv : m.live l.top = true ∧ m.par l.top = a := by
          cases l with
          | nil => exact absurd rfl hl
          | node _ _ _ _ => exact ⟨h6.2.1, h6.2.2.1⟩
        have hlive : (m.clear kill L).live l.top = true := live_clear hlv.1 (fun e => (hL _ e).2 rfl)
        have hla : (m.clear kill L).live a = true := live_clear h2 (fun e => hal (hL _ e).1)
        simp only [postNext, if_neg hlt, rd_ok hlt hlive, rd_ok h1 hla, Option.bind_eq_bind, Option.bind_some]
        have e1 : (m.clear kill L).par l.top = a := hlv.2
        have e2 : (m.clear kill L).left a = l.top := h4
        have e3 : (m.clear kill L).right a = r.top := h5
        simp only [e1, e2, e3, if_neg h1, rd_ok h1 hla, Option.bind_some, ne_eq, not_true, if_false]
        have hr' : Rep (m.clear kill L) a r := rep_clear h7 (fun b hb e => hlr b hb (hL b e).1)
        by_cases hr : r = .nil
        · subst hr
          simp [Tree.top, Tree.postorder]
        · rw [if_pos (fun e => hr ((top_zero h7).1 e)), leftDeep_ok hr' (by omega), Rbtree.headD_append_left (Rbtree.postorder_ne hr)]), right fuel]
      rw [Option.map_map]
      congr 1
      funext s
      simp

/-- C93. A removal-safe post-order walk over a tree visits every node exactly once, children before their parents, whichever nodes its body gives
back; it never reads a node that was given back, and exactly the chosen nodes of the tree are given back. -/
theorem post_teardown (kill : Addr → Bool) {m : Mem} {t : Tree} (hr : Rep m 0 t) (hnd : t.postorder.Nodup) (deep fuel : Nat) (hd : t.height < deep) (hf : t.size < fuel) :
    postForEachSafe kill deep fuel m t.top = some (t.postorder, m.clear kill t.postorder) := by
  by_cases ht : t = .nil
  · subst ht
    obtain ⟨f, rfl⟩ : ∃ f, fuel = f + 1 := ⟨fuel - 1, by simp [Tree.size] at hf; omega⟩
    simp [postForEachSafe, postFirst, Tree.top, postSafe, Tree.postorder, clear_nil]
  · have h0 : t.top ≠ 0 := fun e => ht ((top_zero hr).1 e)
    have hlen : t.postorder.length = t.size := by rw [(Rbtree.postorder_perm t).length_eq]; rfl
    obtain ⟨f, rfl⟩ : ∃ f, fuel = t.postorder.length + (f + 1) := ⟨fuel - t.size - 1, by omega⟩
    simp only [postForEachSafe, postFirst, if_neg h0, leftDeep_ok hr hd, Option.bind_eq_bind, Option.bind_some]
    rw [postSafe_sub t m 0 0 (f + 1) hr ht hnd hd (by
      intro L hL
      have hlv : m.live t.top = true ∧ m.par t.top = 0 := by
        cases t with
        | nil => exact absurd rfl ht
        | node _ _ _ _ => exact ⟨hr.2.1, hr.2.2.1⟩
      have hlive : (m.clear kill L).live t.top = true := live_clear hlv.1 (fun e => (hL _ e).2 rfl)
      have e1 : (m.clear kill L).par t.top = 0 := hlv.2
      simp [postNext, h0, rd_ok h0 hlive, e1])]
    simp [postSafe]

/-- What is left of a walk after its first part. -/
theorem postSafe_suffix {kill : Addr → Bool} {deep : Nat} : ∀ (A : List Addr) {x : Addr} {B : List Addr} {fuel : Nat} {m m' : Mem} {pos : Addr},
    postSafe kill deep fuel m pos = some (A ++ x :: B, m') → A.length ≤ fuel ∧ postSafe kill deep (fuel - A.length) (m.clear kill A) x = some (x :: B, m')
  | [], x, B, 0, m, m', pos, h => by simp [postSafe] at h
  | [], x, B, fuel + 1, m, m', pos, h => by
    have h' := h
    rw [postSafe] at h
    by_cases h0 : pos = 0
    · simp [h0] at h
    · rw [if_neg h0] at h
      simp only [Option.bind_eq_bind, Option.bind_eq_some_iff, Option.pure_def, Option.some.injEq, Prod.mk.injEq, List.nil_append, List.cons.injEq] at h
      obtain ⟨tmp, _, r, _, ⟨rfl, _⟩, _⟩ := h
      exact ⟨by simp, by rw [clear_nil]; exact h'⟩
  | y :: A, x, B, 0, m, m', pos, h => by simp [postSafe] at h
  | y :: A, x, B, fuel + 1, m, m', pos, h => by
    rw [postSafe] at h
    by_cases h0 : pos = 0
    · simp [h0] at h
    · rw [if_neg h0] at h
      simp only [Option.bind_eq_bind, Option.bind_eq_some_iff, Option.pure_def, Option.some.injEq, Prod.mk.injEq, List.cons_append, List.cons.injEq] at h
      obtain ⟨tmp, _, r, h2, ⟨rfl, h3⟩, h4⟩ := h
      obtain ⟨r1, r2⟩ := r
      simp only at h3 h4
      subst h3 h4
      obtain ⟨i1, i2⟩ := postSafe_suffix A h2
      refine ⟨by simp; omega, ?_⟩
      rw [← clear_one, clear_append] at i2
      simpa using i2

theorem postSafe_congr {kill kill' : Addr → Bool} {deep : Nat} : ∀ {fuel : Nat} {m m' : Mem} {pos : Addr} {L : List Addr}, postSafe kill deep fuel m pos = some (L, m') →
    (∀ a ∈ L, kill' a = kill a) → postSafe kill' deep fuel m pos = some (L, m')
  | 0, _, _, _, _, h, _ => by simp [postSafe] at h
  | fuel + 1, m, m', pos, L, h, hk => by
    rw [postSafe] at h ⊢
    by_cases h0 : pos = 0
    · simpa [h0] using h
    · rw [if_neg h0] at h ⊢
      simp only [Option.bind_eq_bind, Option.bind_eq_some_iff, Option.pure_def, Option.some.injEq, Prod.mk.injEq] at h ⊢
      obtain ⟨tmp, h1, r, h2, h3, h4⟩ := h
      subst h3
      refine ⟨tmp, h1, r, ?_, rfl, h4⟩
      rw [hk pos (by simp)]
      exact postSafe_congr (L := r.1) h2 (fun a ha => hk a (by simp [ha]))

theorem postSafe_more {kill : Addr → Bool} {deep : Nat} : ∀ {fuel fuel' : Nat} {m : Mem} {pos : Addr} {r : List Addr × Mem}, postSafe kill deep fuel m pos = some r → fuel ≤ fuel' →
    postSafe kill deep fuel' m pos = some r
  | 0, _, _, _, _, h, _ => by simp [postSafe] at h
  | fuel + 1, 0, _, _, _, _, hf => by omega
  | fuel + 1, fuel' + 1, m, pos, r, h, hf => by
    rw [postSafe] at h ⊢
    by_cases h0 : pos = 0
    · simpa [h0] using h
    · rw [if_neg h0] at h ⊢
      simp only [Option.bind_eq_bind, Option.bind_eq_some_iff, Option.pure_def, Option.some.injEq] at h ⊢
      obtain ⟨tmp, h1, r', h2, h3⟩ := h
      exact ⟨tmp, h1, r', postSafe_more h2 (by omega), h3⟩

/-- C93. The same from any node of the tree (`_safe_from`) and after it (`_safe_continue`): the walk visits the nodes from there, or after it, to the
end of the post-order. -/
theorem post_from (kill : Addr → Bool) {m : Mem} {t : Tree} (hr : Rep m 0 t) (hnd : t.postorder.Nodup) (deep fuel : Nat) (hd : t.height < deep) (hf : t.size < fuel)
    {A : List Addr} {x : Addr} {B : List Addr} (e : t.postorder = A ++ x :: B) :
    postSafe kill deep fuel m x = some (x :: B, m.clear kill (x :: B)) ∧ postContinueSafe kill deep fuel m x = some (B, m.clear kill B) := by
  have hlen : t.postorder.length = t.size := by rw [(Rbtree.postorder_perm t).length_eq]; rfl
  -- run the whole walk, giving back nothing before the start
  have key : ∀ (kill : Addr → Bool) (C D : List Addr), t.postorder = C ++ D → ∀ y E, D = y :: E → postSafe kill deep fuel m y = some (D, m.clear kill D) := by
    intro kill C D e y E hD
    subst hD
    have ht := post_teardown (fun a => kill a && !C.contains a) hr hnd deep fuel hd hf
    simp only [postForEachSafe, Option.bind_eq_bind, Option.bind_eq_some_iff] at ht
    obtain ⟨pos, _, h2⟩ := ht
    rw [e] at h2
    obtain ⟨h3, h4⟩ := postSafe_suffix C h2
    have e1 : m.clear (fun a => kill a && !C.contains a) C = m := by
      simp only [Mem.clear, List.contains_eq_mem]
      cases m; simp only [Mem.mk.injEq, true_and]
      funext b
      by_cases hb : b ∈ C <;> simp [hb]
    have hdis : ∀ a ∈ y :: E, a ∉ C := by
      intro a ha hc
      rw [e, List.nodup_append] at hnd
      exact hnd.2.2 a hc a ha rfl
    have e2 : m.clear (fun a => kill a && !C.contains a) (C ++ y :: E) = m.clear kill (y :: E) := by
      simp only [Mem.clear, List.contains_eq_mem, Mem.mk.injEq, true_and]
      funext b
      by_cases hb : b ∈ C
      · have : b ∉ y :: E := fun h => hdis b h hb
        simp only [hb, this, decide_true, decide_false, Bool.not_true, Bool.and_false, Bool.false_and]
      · simp only [List.mem_append, hb, false_or, decide_false, Bool.not_false, Bool.and_true]
    rw [e1, e2] at h4
    refine postSafe_more (postSafe_congr (kill' := kill) h4 ?_) (Nat.sub_le _ _)
    intro a ha
    simp [hdis a ha]
  refine ⟨key kill A (x :: B) e x B rfl, ?_⟩
  -- the cursor after `x` is the head of `B`
  have hx := key (fun _ => false) A (x :: B) e x B rfl
  obtain ⟨f, rfl⟩ : ∃ f, fuel = f + 1 := ⟨fuel - 1, by omega⟩
  rw [postSafe] at hx
  have hx0 : x ≠ 0 := by
    intro h; subst h; simp at hx
  rw [if_neg hx0] at hx
  simp only [Option.bind_eq_bind, Option.bind_eq_some_iff, Option.pure_def, Option.some.injEq, Prod.mk.injEq, List.cons.injEq, true_and, Bool.false_eq_true, if_false] at hx
  obtain ⟨tmp, t1, ⟨r1, r2⟩, t2, t3, t4⟩ := hx
  simp only at t3 t4
  subst t3 t4
  simp only [postContinueSafe, t1, Option.bind_eq_bind, Option.bind_some]
  cases r1 with
  | nil =>
    have : tmp = 0 := by
      cases f with
      | zero => simp [postSafe] at t2
      | succ f =>
        rw [postSafe] at t2
        by_cases h0 : tmp = 0
        · exact h0
        · rw [if_neg h0] at t2
          simp only [Option.bind_eq_bind, Option.bind_eq_some_iff, Option.pure_def, Option.some.injEq, Prod.mk.injEq] at t2
          obtain ⟨_, _, _, _, h, _⟩ := t2
          simp at h
    subst this
    simp [postSafe, clear_nil]
  | cons y E =>
    have := (postSafe_suffix (A := []) t2).2
    have htmp : tmp = y := by
      cases f with
      | zero => simp [postSafe] at t2
      | succ f =>
        rw [postSafe] at t2
        by_cases h0 : tmp = 0
        · simp [h0] at t2
        · rw [if_neg h0] at t2
          simp only [Option.bind_eq_bind, Option.bind_eq_some_iff, Option.pure_def, Option.some.injEq, Prod.mk.injEq, List.cons.injEq] at t2
          obtain ⟨_, _, _, _, h, _⟩ := t2
          exact h.1
    subst htmp
    exact key kill (A ++ [x]) (tmp :: E) (by rw [e]; simp) tmp E rfl

/-- The plain macro is the removal-safe one with a body that gives back nothing. -/
theorem postWalk_eq (deep : Nat) (m : Mem) : ∀ (fuel : Nat) (pos : Addr), postWalk deep m fuel pos = (postSafe (fun _ => false) deep fuel m pos).map (·.1)
  | 0, _ => rfl
  | fuel + 1, pos => by
    rw [postWalk, postSafe]
    by_cases h0 : pos = 0
    · simp [h0]
    · rw [if_neg h0, if_neg h0]
      cases postNext m deep pos with
      | none => rfl
      | some tmp =>
        simp only [Option.bind_eq_bind, Option.bind_some, postWalk_eq deep m fuel tmp, Bool.false_eq_true, if_false]
        cases postSafe (fun _ => false) deep fuel m tmp <;> rfl

/-- The children of every node come before it. -/
def ChildrenFirst (m : Mem) (L : List Addr) : Prop :=
  ∀ A a B, L = A ++ a :: B → (m.left a ≠ 0 → m.left a ∈ A) ∧ (m.right a ≠ 0 → m.right a ∈ A)

theorem split_append {α : Type} {P Q A B : List α} {a : α} (h : P ++ Q = A ++ a :: B) : (∃ B', P = A ++ a :: B') ∨ (∃ A', A = P ++ A' ∧ Q = A' ++ a :: B) := by
  rcases List.append_eq_append_iff.1 h with ⟨as, h1, h2⟩ | ⟨bs, h1, h2⟩
  · exact Or.inr ⟨as, h1, h2⟩
  · cases bs with
    | nil => exact Or.inr ⟨[], by simpa using h1.symm, by simpa using h2.symm⟩
    | cons b bs =>
      simp only [List.cons_append, List.cons.injEq] at h2
      obtain ⟨rfl, _⟩ := h2
      exact Or.inl ⟨bs, h1⟩

theorem children_first {m : Mem} : ∀ {t : Tree} {p : Addr}, Rep m p t → ChildrenFirst m t.postorder
  | .nil, _, _ => by intro A a B h; simp [Tree.postorder] at h
  | .node l x c r, p, ⟨h1, h2, h3, h4, h5, h6, h7⟩ => by
    intro A a B h
    rw [show (Tree.node l x c r).postorder = l.postorder ++ (r.postorder ++ [x]) by simp [Tree.postorder]] at h
    rcases split_append h with ⟨B', e⟩ | ⟨A', rfl, hh⟩
    · exact children_first h6 A a B' e
    · rcases split_append hh with ⟨B', e⟩ | ⟨A'', hA, h'⟩
      · have := children_first h7 A' a B' e
        exact ⟨fun n => List.mem_append_right _ (this.1 n), fun n => List.mem_append_right _ (this.2 n)⟩
      · have : A'' = [] ∧ a = x := by
          cases A'' with
          | nil => simp at h'; exact ⟨rfl, h'.1.symm⟩
          | cons _ _ => simp at h'
        obtain ⟨rfl, rfl⟩ := this
        rw [List.append_nil] at hA
        rw [h4, h5, hA]
        refine ⟨fun n => ?_, fun n => ?_⟩
        · exact List.mem_append_left _ (top_post (fun e => n ((top_zero h6).2 e)))
        · simp [top_post (fun e => n ((top_zero h7).2 e))]

/-! ## Red-black trees -/

/-- The links of a red-black tree, every node live. -/
def ofRb {α : Type} (h : Rbtree.Heap α) : Mem := ⟨h.par, h.left, h.right, fun _ => true⟩

theorem rep_ofRb {α : Type} {h : Rbtree.Heap α} : ∀ {t : Tree} {p : Addr}, Rbtree.Rep h p t → Rep (ofRb h) p t
  | .nil, _, _ => trivial
  | .node _ _ _ _, _, ⟨h1, h2, h3, h4, _, h6, h7⟩ => ⟨h1, rfl, h2, h3, h4, rep_ofRb h6, rep_ofRb h7⟩

/-- C93, red-black trees: a removal-safe post-order walk that gives back every node visits each exactly once and never reads one it gave back;
afterwards exactly the nodes of the tree are gone. -/
theorem rb_teardown {α : Type} {h : Rbtree.Heap α} {t : Tree} (hh : Rbtree.Holds h t) (deep fuel : Nat) (hd : t.height < deep) (hf : t.size < fuel) :
    ∃ m, postForEachSafe (fun _ => true) deep fuel (ofRb h) h.root = some (t.postorder, m) ∧ t.postorder.Perm t.inorder ∧ ChildrenFirst (ofRb h) t.postorder ∧
      (∀ a, m.live a = false ↔ a ∈ t.inorder) := by
  have hp := Rbtree.postorder_perm t
  have := post_teardown (fun _ => true) (rep_ofRb hh.2.1) ((hp.nodup_iff).2 hh.2.2) deep fuel hd hf
  rw [← hh.1] at this
  refine ⟨_, this, hp, children_first (rep_ofRb hh.2.1), fun a => ?_⟩
  rw [← hp.mem_iff]
  simp [Mem.clear, ofRb]

example : (Rbtree.runAll Rbtree.exCmp Rbtree.Cb.dummy 10 Rbtree.exOps Rbtree.exEmpty).bind (fun h => (postForEachSafe (fun _ => true) 10 20 (ofRb h) h.root).map fun r =>
    (r.1, [2, 3, 5, 6, 8, 20, 30].map r.2.live)) = some ([2, 5, 8, 6, 30, 20], [false, true, false, false, false, false, false]) := by decide +kernel
/-- A walk that takes the successor after the body has run reads a node that was given back: here the last step of the plain macro on memory in which
node 5 is gone. -/
example : (Rbtree.runAll Rbtree.exCmp Rbtree.Cb.dummy 10 Rbtree.exOps Rbtree.exEmpty).bind (fun h => postNext ((ofRb h).free 5) 10 5) = none := by decide +kernel

/-! ## Heaps -/

/-- The links of a heap, every node live. -/
def ofHeap (s : Heap.State) : Mem := ⟨s.parent, s.left, s.right, fun _ => true⟩

/-- The tree below node number `k`. -/
def treeOf (g : Nat → Addr) : Nat → Nat → Tree
  | 0, _ => .nil
  | f + 1, k => if g k = 0 then .nil else .node (treeOf g f (2 * k)) (g k) true (treeOf g f (2 * k + 1))

theorem treeOf_height (g : Nat → Addr) : ∀ (f k : Nat), (treeOf g f k).height ≤ f
  | 0, _ => by simp [treeOf, Tree.height]
  | f + 1, k => by
    rw [treeOf]
    split
    · simp [Tree.height]
    · have h1 := treeOf_height g f (2 * k)
      have h2 := treeOf_height g f (2 * k + 1)
      simp only [Tree.height]; omega

theorem treeOf_top {s : Heap.State} {g : Nat → Addr} (h : Heap.Shape s g) : ∀ (f k : Nat), s.count < k * 2 ^ f → (treeOf g f k).top = g k
  | 0, k, hk => by
    have : ¬ g k ≠ 0 := by rw [h.number]; simp at hk; omega
    simp only [ne_eq, Decidable.not_not] at this
    rw [this]; rfl
  | f + 1, k, _ => by
    rw [treeOf]
    split
    · next e => rw [e]; rfl
    · rfl

theorem treeOf_rep {s : Heap.State} {g : Nat → Addr} (h : Heap.Shape s g) : ∀ (f k : Nat), s.count < k * 2 ^ f → Rep (ofHeap s) (g (k / 2)) (treeOf g f k)
  | 0, _, _ => trivial
  | f + 1, k, hk => by
    rw [treeOf]
    split
    · trivial
    · next h0 =>
      have hl : s.count < 2 * k * 2 ^ f := by rw [Nat.pow_succ] at hk; rw [Nat.mul_comm 2 k, Nat.mul_assoc, Nat.mul_comm 2]; exact hk
      have hr : s.count < (2 * k + 1) * 2 ^ f := Nat.lt_of_lt_of_le hl (Nat.mul_le_mul_right _ (by omega))
      refine ⟨h0, rfl, h.parent k h0, ?_, ?_, ?_, ?_⟩
      · rw [treeOf_top h f _ hl]; exact h.left k h0
      · rw [treeOf_top h f _ hr]; exact h.right k h0
      · have := treeOf_rep h f _ hl
        rwa [show 2 * k / 2 = k by omega] at this
      · have := treeOf_rep h f _ hr
        rwa [show (2 * k + 1) / 2 = k by omega] at this

theorem treeOf_mem {g : Nat → Addr} : ∀ (f k : Nat) {x : Addr}, x ∈ (treeOf g f k).postorder → ∃ j i, x = g j ∧ g j ≠ 0 ∧ j / 2 ^ i = k
  | 0, _, _, hx => by simp [treeOf, Tree.postorder] at hx
  | f + 1, k, x, hx => by
    rw [treeOf] at hx
    split at hx
    · simp [Tree.postorder] at hx
    · next h0 =>
      simp only [Tree.postorder, List.mem_append, List.mem_singleton] at hx
      rcases hx with (hx | hx) | rfl
      · obtain ⟨j, i, e1, e2, e3⟩ := treeOf_mem f _ hx
        exact ⟨j, i + 1, e1, e2, by rw [Nat.pow_succ, ← Nat.div_div_eq_div_mul, e3]; omega⟩
      · obtain ⟨j, i, e1, e2, e3⟩ := treeOf_mem f _ hx
        exact ⟨j, i + 1, e1, e2, by rw [Nat.pow_succ, ← Nat.div_div_eq_div_mul, e3]; omega⟩
      · exact ⟨k, 0, rfl, h0, by simp⟩

theorem mem_treeOf {s : Heap.State} {g : Nat → Addr} (h : Heap.Shape s g) {j : Nat} (hj : g j ≠ 0) : ∀ (f k i : Nat), s.count < k * 2 ^ f → 1 ≤ k → j / 2 ^ i = k →
    g j ∈ (treeOf g f k).postorder
  | 0, k, i, hk, h1, e => by
    have := (h.number j).1 hj
    have := Nat.div_le_self j (2 ^ i)
    simp at hk; omega
  | f + 1, k, i, hk, h1, e => by
    have hjn := (h.number j).1 hj
    have hle := Nat.div_le_self j (2 ^ i)
    have h0 : g k ≠ 0 := (h.number k).2 ⟨h1, by omega⟩
    have hl : s.count < 2 * k * 2 ^ f := by rw [Nat.pow_succ] at hk; rw [Nat.mul_comm 2 k, Nat.mul_assoc, Nat.mul_comm 2]; exact hk
    have hr : s.count < (2 * k + 1) * 2 ^ f := Nat.lt_of_lt_of_le hl (Nat.mul_le_mul_right _ (by omega))
    rw [treeOf, if_neg h0]
    simp only [Tree.postorder, List.mem_append, List.mem_singleton]
    cases i with
    | zero => simp at e; subst e; exact Or.inr rfl
    | succ i =>
      rw [Nat.pow_succ, ← Nat.div_div_eq_div_mul] at e
      have : j / 2 ^ i = 2 * k ∨ j / 2 ^ i = 2 * k + 1 := by omega
      rcases this with e | e
      · exact Or.inl (Or.inl (mem_treeOf h hj f _ i hl (by omega) e))
      · exact Or.inl (Or.inr (mem_treeOf h hj f _ i hr (by omega) e))

/-- Two different nodes on one level have no common descendants. -/
theorem anc_level {j i i' k : Nat} (hk : 1 ≤ k) (h1 : j / 2 ^ i = 2 * k) (h2 : j / 2 ^ i' = 2 * k + 1) : False := by
  rcases Nat.lt_trichotomy i i' with h | h | h
  · obtain ⟨d, rfl⟩ : ∃ d, i' = i + (d + 1) := ⟨i' - i - 1, by omega⟩
    rw [Nat.pow_add, ← Nat.div_div_eq_div_mul, h1, Nat.pow_succ, Nat.mul_comm (2 ^ d) 2, ← Nat.div_div_eq_div_mul] at h2
    have := Nat.div_le_self (2 * k / 2) (2 ^ d)
    omega
  · subst h; omega
  · obtain ⟨d, rfl⟩ : ∃ d, i = i' + (d + 1) := ⟨i - i' - 1, by omega⟩
    rw [Nat.pow_add, ← Nat.div_div_eq_div_mul, h2, Nat.pow_succ, Nat.mul_comm (2 ^ d) 2, ← Nat.div_div_eq_div_mul] at h1
    have := Nat.div_le_self ((2 * k + 1) / 2) (2 ^ d)
    omega

theorem anc_ne {i k : Nat} (hk : 1 ≤ k) {c : Nat} (hc : c = 2 * k ∨ c = 2 * k + 1) (h : k / 2 ^ i = c) : False := by
  have := Nat.div_le_self k (2 ^ i)
  omega

theorem treeOf_nodup {s : Heap.State} {g : Nat → Addr} (h : Heap.Shape s g) : ∀ (f k : Nat), 1 ≤ k → (treeOf g f k).postorder.Nodup
  | 0, _, _ => by simp [treeOf, Tree.postorder]
  | f + 1, k, hk => by
    rw [treeOf]
    split
    · simp [Tree.postorder]
    · next h0 =>
      simp only [Tree.postorder, List.nodup_append, List.mem_append, List.mem_singleton]
      refine ⟨⟨treeOf_nodup h f _ (by omega), treeOf_nodup h f _ (by omega), ?_⟩, by simp, ?_⟩
      · rintro a ha b hb rfl
        obtain ⟨j, i, e1, e2, e3⟩ := treeOf_mem f _ ha
        obtain ⟨j', i', e1', e2', e3'⟩ := treeOf_mem f _ hb
        have := h.inj j j' e2 (by rw [← e1, ← e1'])
        subst this
        exact anc_level hk e3 e3'
      · rintro a ha b rfl rfl
        rcases ha with ha | ha
        · obtain ⟨j, i, e1, e2, e3⟩ := treeOf_mem f _ ha
          have := h.inj j k e2 e1.symm
          subst this
          exact anc_ne hk (Or.inl rfl) e3
        · obtain ⟨j, i, e1, e2, e3⟩ := treeOf_mem f _ ha
          have := h.inj j k e2 e1.symm
          subst this
          exact anc_ne hk (Or.inr rfl) e3

/-- C93, heaps: a removal-safe post-order walk that gives back every node of a heap visits each exactly once, children first, and never reads one it
gave back; afterwards exactly the nodes of the heap are gone. -/
theorem heap_teardown {cmp : Addr → Addr → Int} {s : Heap.State} {S : List Addr} (h : Heap.IsHeap cmp s S) (deep fuel : Nat) (hd : S.length < deep) (hf : S.length < fuel) :
    ∃ L m, postForEachSafe (fun _ => true) deep fuel (ofHeap s) s.root = some (L, m) ∧ L.Perm S ∧ ChildrenFirst (ofHeap s) L ∧ (∀ a, m.live a = false ↔ a ∈ S) := by
  have hcount := h.count
  obtain ⟨g, hs, _, hperm⟩ := h
  have hf0 : s.count < 1 * 2 ^ s.count := by rw [Nat.one_mul]; exact Nat.lt_two_pow_self
  have hrep := treeOf_rep hs s.count 1 hf0
  have hnd := treeOf_nodup hs s.count 1 (Nat.le_refl _)
  have hg0 : g (1 / 2) = 0 := by
    have := mt (hs.number 0).1 (by omega)
    simpa using this
  rw [hg0] at hrep
  have hpn : (treeOf g s.count 1).postorder.Perm (Heap.nodes s g) := by
    refine (List.perm_ext_iff_of_nodup hnd (Heap.nodup_nodes hs)).2 fun x => ?_
    rw [Heap.mem_nodes hs]
    constructor
    · intro hx
      obtain ⟨j, i, e1, e2, _⟩ := treeOf_mem _ _ hx
      exact ⟨e1 ▸ e2, j, e1.symm⟩
    · rintro ⟨h0, j, rfl⟩
      have hj := (hs.number j).1 h0
      refine mem_treeOf hs h0 s.count 1 (Nat.log2 j) hf0 (Nat.le_refl _) ?_
      have h1 := Nat.log2_self_le (n := j) (by omega)
      have h2 := Nat.lt_log2_self (n := j)
      exact Nat.div_eq_of_lt_le (by omega) (by rw [Nat.pow_succ] at h2; omega)
  have hps := hpn.trans hperm
  have hsz : (treeOf g s.count 1).size = S.length := by rw [Tree.size, ← (Rbtree.postorder_perm _).length_eq, hps.length_eq]
  have := post_teardown (fun _ => true) hrep hnd deep fuel (by have := treeOf_height g s.count 1; omega) (by omega)
  rw [treeOf_top hs _ _ hf0, ← hs.root] at this
  refine ⟨_, _, this, hps, children_first hrep, fun a => ?_⟩
  rw [← hps.mem_iff]
  simp [Mem.clear, ofHeap]

example : (Heap.runAll Heap.byAddr 10 (Heap.init Heap.zeroMem) Heap.demo).bind (fun s => (postForEachSafe (fun _ => true) 10 10 (ofHeap s) s.root).map fun r =>
    (r.1, [10, 11, 20, 70].map r.2.live)) = some ([31, 70, 30, 20, 10], [false, true, false, false]) := by decide +kernel

/-- Walks from node 8 and after it that give back some of the nodes. -/
def exMem : Mem := ofRb ((Rbtree.runAll Rbtree.exCmp Rbtree.Cb.dummy 10 Rbtree.exOps Rbtree.exEmpty).getD Rbtree.exEmpty)
example : (postSafe (fun a => a % 4 == 2) 10 20 exMem 8).map (·.1) = some [8, 6, 30, 20] := by decide +kernel
example : (postContinueSafe (fun a => a % 4 == 2) 10 20 exMem 8).map (·.1) = some [6, 30, 20] := by decide +kernel

/-- C93: nothing follows NULL: continuing from it visits no node and changes nothing, as does an empty tree. -/
theorem continue_null (kill : Addr → Bool) (deep fuel : Nat) (m : Mem) : postNext m deep 0 = some 0 ∧ postFirst m deep 0 = some 0 ∧
    postContinueSafe kill deep (fuel + 1) m 0 = some ([], m) ∧ postForEachSafe kill deep (fuel + 1) m 0 = some ([], m) := by
  refine ⟨rfl, rfl, ?_, ?_⟩ <;> simp [postContinueSafe, postForEachSafe, postNext, postFirst, postSafe]

end Bfdev.Titer
