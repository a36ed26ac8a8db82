import Verif.Segtree.Model
import Verif.Rbtree.Props
/-!
Property C29 (interval tree).
-/
namespace Bfdev.Segtree
open Rbtree

/-- The interval of node `a` meets the query. -/
def Meets (E : Ends) (start last : Int) (a : Addr) : Prop := E.lo a ≤ last ∧ start ≤ E.hi a

instance (E : Ends) (start last : Int) (a : Addr) : Decidable (Meets E start last a) := inferInstanceAs (Decidable (_ ∧ _))

/-- The nodes of the sequence whose intervals meet the query. -/
def hits (E : Ends) (start last : Int) (L : List Addr) : List Addr := L.filter fun a => decide (Meets E start last a)

/-- Every node keeps the greatest end of its subtree. -/
def Maxed (E : Ends) (h : Heap Int) : Tree → Prop
  | .nil => True
  | .node l a c r => (∀ x, x ∈ (Tree.node l a c r).inorder → E.hi x ≤ h.aug a) ∧ (∃ x, x ∈ (Tree.node l a c r).inorder ∧ E.hi x = h.aug a) ∧ Maxed E h l ∧ Maxed E h r

/-- Ascending starts. -/
def Sorted (E : Ends) (L : List Addr) : Prop := L.Pairwise fun a b => E.lo a ≤ E.lo b

variable {E : Ends} {start last : Int} {h : Heap Int}

theorem hits_append (A B : List Addr) : hits E start last (A ++ B) = hits E start last A ++ hits E start last B := List.filter_append ..

theorem hits_cons (a : Addr) (B : List Addr) : hits E start last (a :: B) = if Meets E start last a then a :: hits E start last B else hits E start last B := by
  unfold hits
  rw [List.filter_cons]
  by_cases hm : Meets E start last a <;> simp [hm]

theorem hits_nil {L : List Addr} : hits E start last L = [] ↔ ∀ a ∈ L, ¬ Meets E start last a := by
  unfold hits
  rw [List.filter_eq_nil_iff]; simp

theorem Maxed.low {t : Tree} (hm : Maxed E h t) (ht : t.top ≠ 0 → ¬ h.aug t.top ≥ start) {p : Addr} (hr : Rep h p t) : hits E start last t.inorder = [] := by
  cases t with
  | nil => rfl
  | node l a c r =>
    rw [hits_nil]
    intro x hx hmeet
    have h1 := hm.1 x hx
    have h2 := ht hr.1
    have := hmeet.2
    simp only [Tree.top] at h2
    omega

/-- If a subtree holds an end not before the query and none of its intervals meets the query, no later interval does. -/
theorem Maxed.stop {t : Tree} (hm : Maxed E h t) (ht : t.top ≠ 0) (hge : h.aug t.top ≥ start) {B : List Addr} (hs : Sorted E (t.inorder ++ B)) (he : hits E start last t.inorder = []) :
    hits E start last B = [] := by
  cases t with
  | nil => exact absurd rfl ht
  | node l a c r =>
    obtain ⟨_, ⟨x, hx, hxe⟩, _⟩ := hm
    rw [hits_nil] at he ⊢
    intro y hy hmeet
    have h1 := he x hx
    have h2 := (List.pairwise_append.1 hs).2.2 x hx y hy
    simp only [Tree.top] at hge
    exact h1 ⟨Int.le_trans h2 hmeet.1, by omega⟩

theorem search_rep : ∀ (t : Tree) (p : Addr) (fuel : Nat), Rep h p t → t ≠ .nil → Maxed E h t → Sorted E t.inorder → t.height ≤ fuel →
    search E start last h fuel t.top = some ((hits E start last t.inorder).headD 0) := by
  intro t
  induction t with
  | nil => intro p fuel _ hne; exact absurd rfl hne
  | node l a c r ihl ihr =>
    intro p fuel hr _ hm hs hf
    obtain ⟨x1, x2, x3, x4, x5, x6, x7⟩ := hr
    obtain ⟨m1, m2, m3, m4⟩ := hm
    cases fuel with
    | zero => simp [Tree.height] at hf
    | succ fuel =>
      simp only [Tree.height] at hf
      simp only [Tree.inorder] at hs ⊢
      have hsl : Sorted E l.inorder := (List.pairwise_append.1 hs).1
      have hsr : Sorted E (a :: r.inorder) := (List.pairwise_append.1 hs).2.1
      rw [hits_append]
      show search E start last h (fuel + 1) a = _
      rw [search, x3, x4]
      by_cases hl : l.top ≠ 0 ∧ h.aug l.top ≥ start
      · rw [if_pos hl, ihl a fuel x6 ((rep_top x6).1 hl.1) m3 hsl (by omega)]
        by_cases he : hits E start last l.inorder = []
        · rw [he, m3.stop hl.1 hl.2 hs he]; rfl
        · rw [headD_append_left he]
      · rw [if_neg hl, m3.low (fun a b => hl ⟨a, b⟩) x6, List.nil_append, hits_cons]
        by_cases hlo : E.lo a ≤ last
        · rw [if_pos hlo]
          by_cases hhi : start ≤ E.hi a
          · rw [if_pos hhi, if_pos (show Meets E start last _ from ⟨hlo, hhi⟩)]; rfl
          · rw [if_neg hhi, if_neg (show ¬ Meets E start last _ from fun hm => hhi hm.2)]
            by_cases hrr : r.top ≠ 0 ∧ h.aug r.top ≥ start
            · rw [if_pos hrr, ihr a fuel x7 ((rep_top x7).1 hrr.1) m4 (List.pairwise_cons.1 hsr).2 (by omega)]
            · rw [if_neg hrr, m4.low (fun a b => hrr ⟨a, b⟩) x7]; rfl
        · rw [if_neg hlo, if_neg (show ¬ Meets E start last _ from fun hm => hlo hm.1)]
          have : hits E start last r.inorder = [] := by
            rw [hits_nil]
            intro y hy hmeet
            exact hlo (Int.le_trans ((List.pairwise_cons.1 hsr).1 y hy) hmeet.1)
          rw [this]; rfl

/-- The maxima around the hole. -/
def MaxedC (E : Ends) (h : Heap Int) : Ctx → Prop
  | [] => True
  | f :: k => Maxed E h f.sib ∧ MaxedC E h k

theorem maxed_plug : ∀ (k : Ctx) (t : Tree), Maxed E h (plug k t) → Maxed E h t ∧ MaxedC E h k
  | [], t, hm => ⟨hm, trivial⟩
  | ⟨true, a, c, s⟩ :: k, t, hm => by
    obtain ⟨h1, h2⟩ := maxed_plug k _ hm
    exact ⟨h1.2.2.1, h1.2.2.2, h2⟩
  | ⟨false, a, c, s⟩ :: k, t, hm => by
    obtain ⟨h1, h2⟩ := maxed_plug k _ hm
    exact ⟨h1.2.2.2, h1.2.2.1, h2⟩

/-- Where `climb` ends: nowhere, or at a node that has everything so far on its left. -/
theorem climb_at : ∀ (k : Ctx) (t : Tree) (fuel : Nat), At h k t → t.top ≠ 0 → MaxedC E h k → k.length < fuel →
    (climb h fuel t.top = some 0 ∧ post k = []) ∨
    ∃ k' l a c r, climb h fuel t.top = some a ∧ At h k' (.node l a c r) ∧ post k = a :: r.inorder ++ post k' ∧ Maxed E h r ∧ MaxedC E h k' ∧ k'.length < k.length ∧ plug k t = plug k' (.node l a c r)
  | _, _, 0, _, _, _, hf => absurd hf (Nat.not_lt_zero _)
  | [], t, fuel + 1, hat, ht, _, _ => by
    left
    obtain ⟨hk, hr, _⟩ := hat
    cases t with
    | nil => exact absurd rfl ht
    | node l a c r =>
      refine ⟨?_, rfl⟩
      show climb h (fuel + 1) a = _
      rw [climb, hr.2.1, if_pos (show up [] = 0 from rfl)]
  | ⟨true, p, cp, s⟩ :: k, t, fuel + 1, hat, ht, hm, hf => by
    right
    have hat0 := hat
    obtain ⟨hk, hr, hnd⟩ := hat
    obtain ⟨h1, h2, h3, h4, h5, h6, h7⟩ := hk
    cases t with
    | nil => exact absurd rfl ht
    | node l a c r =>
      refine ⟨k, _, p, cp, s, ?_, at_down_left.2 hat0, rfl, hm.1, hm.2, by simp, rfl⟩
      show climb h (fuel + 1) a = _
      have hpa : h.par a = p := hr.2.1
      rw [climb, hpa, if_neg h1, h4, if_neg]
      refine sib_ne h6 hr.1 ?_
      simp only [Tree.inorder, post, pre, List.nodup_append, List.nodup_cons, List.mem_append, List.mem_cons] at hnd
      grind
  | ⟨false, p, cp, s⟩ :: k, t, fuel + 1, hat, ht, hm, hf => by
    have hat0 := at_down_right.2 hat
    obtain ⟨hk, hr, hnd⟩ := hat
    obtain ⟨h1, h2, h3, h4, h5, h6, h7⟩ := hk
    cases t with
    | nil => exact absurd rfl ht
    | node l a c r =>
      have hpa : h.par a = p := hr.2.1
      have e : climb h (fuel + 1) (Tree.node l a c r).top = climb h fuel p := by
        show climb h (fuel + 1) a = _
        rw [climb, hpa, if_neg h1, h4, show (Tree.node l a c r).top = a from rfl, if_pos rfl]
      have := climb_at k _ fuel hat0 h1 hm.2 (by simp at hf; omega)
      rw [e]
      rcases this with ⟨a1, a2⟩ | ⟨k', l', a', c', r', b1, b2, b3, b4, b5, b6, b7⟩
      · exact Or.inl ⟨a1, a2⟩
      · exact Or.inr ⟨k', l', a', c', r', b1, b2, b3, b4, b5, by simp; omega, b7⟩

theorem next_rep : ∀ (fuel : Nat) (k : Ctx) (l r : Tree) (x : Addr) (c : Bool) (inner : Nat), At h k (.node l x c r) → Maxed E h r → MaxedC E h k →
    Sorted E (r.inorder ++ post k) → k.length < fuel → (plug k (.node l x c r)).height ≤ inner →
    next E start last h inner fuel x = some ((hits E start last (r.inorder ++ post k)).headD 0) := by
  intro fuel
  induction fuel with
  | zero => intro k l r x c inner _ _ _ _ hf; omega
  | succ fuel ih =>
    intro k l r x c inner hat hm hmc hs hf hi
    have hat0 := hat
    obtain ⟨hk, ⟨x1, x2, x3, x4, x5, x6, x7⟩, hnd⟩ := hat
    have hlen := length_height k (.node l x c r)
    simp only [Tree.height] at hlen
    rw [next, x4, hits_append]
    by_cases hr : r.top ≠ 0 ∧ h.aug r.top ≥ start
    · rw [if_pos hr, search_rep r x inner x7 ((rep_top x7).1 hr.1) hm (List.pairwise_append.1 hs).1 (by omega)]
      by_cases he : hits E start last r.inorder = []
      · rw [he, hm.stop hr.1 hr.2 hs he]; rfl
      · rw [headD_append_left he]
    · rw [if_neg hr, hm.low (fun a b => hr ⟨a, b⟩) x7, List.nil_append]
      rcases climb_at k _ inner hat0 x1 hmc (by omega) with ⟨a1, a2⟩ | ⟨k', l', a', c', r', b1, b2, b3, b4, b5, b6, b7⟩
      · rw [show (Tree.node l x c r).top = x from rfl] at a1
        rw [a1, Option.bind_some, if_pos rfl, a2]; rfl
      · rw [show (Tree.node l x c r).top = x from rfl] at b1
        have hsp := (List.pairwise_append.1 hs).2.1
        rw [b3] at hsp
        rw [b1, Option.bind_some, if_neg b2.2.1.1, b3, List.cons_append, hits_cons]
        have hsp' := List.pairwise_cons.1 hsp
        by_cases hlo : last < E.lo a'
        · rw [if_pos hlo, if_neg (show ¬ Meets E start last _ from fun hm => by have := hm.1; omega)]
          have : hits E start last (r'.inorder ++ post k') = [] := by
            rw [hits_nil]
            intro y hy hmeet
            have := hsp'.1 y hy
            have := hmeet.1
            omega
          rw [this]; rfl
        · rw [if_neg hlo]
          by_cases hhi : start ≤ E.hi a'
          · rw [if_pos hhi, if_pos (show Meets E start last _ from ⟨by omega, hhi⟩)]; rfl
          · rw [if_neg hhi, if_neg (show ¬ Meets E start last _ from fun hm => hhi hm.2)]
            exact ih k' l' r' a' c' inner b2 b4 b5 hsp'.2 (by omega) (by rw [← b7]; exact hi)

theorem visits_all {nxt : Addr → Option Addr} (P : List Addr → List Addr) (inner : Nat) (hn : ∀ a, nxt a = next E start last h inner inner a) {L : List Addr}
    (h0 : ∀ a, a ∈ L → a ≠ 0) (hs : ∀ A y B, L = A ++ y :: B → nxt y = some ((hits E start last B).headD 0)) :
    ∀ (n : Nat) (A B : List Addr) (fuel : Nat), L = A ++ B → B.length ≤ n → B.length < fuel →
      visits E start last h inner fuel ((hits E start last B).headD 0) = some (hits E start last B) := by
  intro n
  induction n with
  | zero =>
    intro A B fuel _ hB hf
    cases B with
    | nil =>
      cases fuel with
      | zero => simp at hf
      | succ fuel => rfl
    | cons b B => simp at hB
  | succ n ih =>
    intro A B fuel hL hB hf
    cases B with
    | nil =>
      cases fuel with
      | zero => simp at hf
      | succ fuel => rfl
    | cons b B =>
      rw [hits_cons]
      by_cases hm : Meets E start last b
      · rw [if_pos hm]
        cases fuel with
        | zero => simp at hf
        | succ fuel =>
          rw [List.headD_cons, visits, if_neg (h0 b (by rw [hL]; simp)), ← hn, hs A b B hL, Option.bind_some,
            ih (A ++ [b]) B fuel (by rw [hL]; simp) (by simp at hB; omega) (by simp at hf; omega)]
          rfl
      · rw [if_neg hm]
        exact ih (A ++ [b]) B fuel (by rw [hL]; simp) (by simp at hB; omega) (by simp at hf; omega)

/-- **C29, partial**: in a tree sorted by start in which every node keeps the greatest end of its subtree, the first-overlap search returns
the first interval in order that meets the query (NULL exactly if none does), and iteration enumerates precisely the intervals that meet the
query, in order. Missing: insertion does not maintain the kept maxima, see `segtree_query_violated`. -/
theorem segtree_query_partial {t : Tree} {lm : Addr} {fuel : Nat} (hh : Holds h t) (hs : Sorted E t.inorder) (hm : Maxed E h t) (hlm : lm = t.inorder.headD 0)
    (hf : t.height ≤ fuel) (hf0 : 0 < fuel) :
    first E start last fuel h lm = some ((hits E start last t.inorder).headD 0) ∧
    (first E start last fuel h lm).bind (visits E start last h fuel (t.size + 1)) = some (hits E start last t.inorder) := by
  have hfirst : first E start last fuel h lm = some ((hits E start last t.inorder).headD 0) := by
    obtain ⟨h1, h2, h3⟩ := hh
    unfold first
    cases t with
    | nil => rw [if_pos (show h.root = 0 from h1)]; rfl
    | node l a c r =>
      have hroot : h.root = a := h1
      rw [hroot, if_neg h2.1]
      by_cases ha : h.aug a < start
      · rw [if_pos ha, hm.low (start := start) (fun _ hb => by have : h.aug a ≥ start := hb; omega) h2]; rfl
      · rw [if_neg ha]
        have hlo : ∀ x ∈ (Tree.node l a c r).inorder, E.lo lm ≤ E.lo x := by
          intro x hx
          rw [hlm]
          generalize (Tree.node l a c r).inorder = L at hx hs
          cases L with
          | nil => exact absurd hx List.not_mem_nil
          | cons b L =>
            rcases List.mem_cons.1 hx with rfl | hx
            · exact Int.le_refl _
            · exact (List.pairwise_cons.1 hs).1 x hx
        by_cases hl : E.lo lm > last
        · rw [if_pos hl]
          have : hits E start last (Tree.node l a c r).inorder = [] := by
            rw [hits_nil]
            intro y hy hmeet
            have := hlo y hy
            have := hmeet.1
            omega
          rw [this]; rfl
        · rw [if_neg hl]
          exact search_rep (.node l a c r) 0 fuel h2 (by simp) hm hs hf
  refine ⟨hfirst, ?_⟩
  rw [hfirst, Option.bind_some]
  refine visits_all (L := t.inorder) id fuel (fun _ => rfl) hh.2.1.ne_zero ?_ t.inorder.length [] t.inorder _ rfl (Nat.le_refl _) (Nat.lt_succ_self _)
  intro A y B hL
  obtain ⟨k, l, c, r, rfl⟩ := exists_ctx t (x := y) (by rw [hL]; simp)
  obtain ⟨hm1, hm2⟩ := maxed_plug k _ hm
  have hnd := hh.2.2
  rw [inorder_plug] at hL hnd hs
  simp only [Tree.inorder] at hL hnd hs
  have e : A = pre k ++ l.inorder ∧ B = r.inorder ++ post k := by
    have e1 : pre k ++ (l.inorder ++ y :: r.inorder) ++ post k = (pre k ++ l.inorder) ++ y :: (r.inorder ++ post k) := by simp
    rw [e1] at hL hnd
    obtain ⟨a, b⟩ := nodup_split hnd hL
    exact ⟨a.symm, b.symm⟩
  rw [e.2]
  have hlen := length_height k (.node l y c r)
  simp only [Tree.height] at hlen
  refine next_rep fuel k l r y c fuel (at_iff.2 hh) hm1.2.2.2 hm2 ?_ (by omega) hf
  have e1 : pre k ++ (l.inorder ++ y :: r.inorder) ++ post k = (pre k ++ l.inorder ++ [y]) ++ (r.inorder ++ post k) := by simp
  rw [e1] at hs
  exact (List.pairwise_append.1 hs).2.1

/-! ### Concrete cases -/

def mem0 : Heap Int := ⟨fun _ => 0, fun _ => 0, fun _ => 0, fun _ => false, fun _ => 0, 0⟩

/-- Insertion of a list of nodes. -/
def inserts (E : Ends) (fuel : Nat) : List Addr → Heap Int × Addr → Option (Heap Int × Addr)
  | [], s => some s
  | a :: L, s => (insert E fuel s.1 s.2 a).bind (inserts E fuel L)

/-- Node `a` has the interval [a, 100 - a]. -/
def exE : Ends := ⟨fun a => a, fun a => 100 - a⟩

def dump (h : Heap Int) (L : List Addr) : List (Addr × Int) := L.map fun a => (h.left a, h.aug a)

/-- **C29 is violated**: after the insertion of the intervals [10, 90], [5, 95] and [7, 93] the search for an interval that meets [94, 94]
finds none, although [5, 95] does. -/
theorem segtree_query_violated : ∃ s, inserts exE 10 [10, 5, 7] (mem0, 0) = some s ∧ first exE 94 94 10 s.1 s.2 = some 0 ∧ Meets exE 94 94 5 := by
  have h : ((inserts exE 10 [10, 5, 7] (mem0, 0)).map fun s => first exE 94 94 10 s.1 s.2) = some (some 0) := by decide +kernel
  obtain ⟨s, hs, he⟩ := Option.map_eq_some_iff.1 h
  exact ⟨s, hs, he, by decide⟩

/-- Insertions that need no rotation keep the maxima, and the queries are exact. -/
example : ((inserts exE 10 [10, 5, 15] (mem0, 0)).bind fun s => (first exE 94 94 10 s.1 s.2).bind (visits exE 94 94 s.1 10 5)) = some [5] := by decide +kernel
example : ((inserts exE 10 [10, 5, 15] (mem0, 0)).bind fun s => (first exE 20 86 10 s.1 s.2).bind (visits exE 20 86 s.1 10 5)) = some [5, 10, 15] := by decide +kernel

/-- A tree of three intervals as it stands in memory. -/
def exH : Heap Int :=
  ⟨fun a => if a = 5 ∨ a = 15 then 10 else 0, fun a => if a = 10 then 5 else 0, fun a => if a = 10 then 15 else 0, fun a => a == 10,
   fun a => if a = 15 then 85 else 95, 10⟩
def exT : Tree := .node (.node .nil 5 false .nil) 10 true (.node .nil 15 false .nil)

/-- The hypotheses of `segtree_query_partial` are met. -/
example : Holds exH exT ∧ Sorted exE exT.inorder ∧ Maxed exE exH exT ∧ 5 = exT.inorder.headD 0 ∧ exT.height ≤ 10 := by
  refine ⟨⟨rfl, ?_, by decide⟩, ?_, ?_, rfl, by decide⟩
  · simp [exT, exH, Rep, Tree.top]
  · simp [exT, Tree.inorder, Sorted, exE]
  · simp [exT, exH, exE, Maxed, Tree.inorder]

end Bfdev.Segtree
