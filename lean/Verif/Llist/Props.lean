import Verif.Llist.Lemmas
/-!
C20: the lock-less list.
-/
namespace Bfdev.Llist

/-- All nodes handed out by the operations of the log. -/
inductive Returned : List (Tid × Ev) → List Nat → Prop
  | nil : Returned [] []
  | push {t b e l r} : Returned l r → Returned ((t, .push b e) :: l) r
  | grab {t p nx g l r} : Chain nx p g → Returned l r → Returned ((t, .grab p nx) :: l) (g ++ r)
  | none {t l r} : Returned l r → Returned ((t, .del 0) :: l) r
  | del {t n l r} : n ≠ 0 → Returned l r → Returned ((t, .del n) :: l) (n :: r)

/-- C20: in every interleaving of any number of threads, the operations report what a plain list would report if they had been executed
one after the other in the order in which they took effect, and the memory holds that plain list. Grabs and pushes may reuse nodes;
removals of single nodes are included as long as no node is pushed twice. -/
theorem llist_linearizable {reuse : Bool} {s : Sys} (h : Reach reuse s) :
    Legal s.log ∧ Chain s.next s.head (content s.log) ∧ (content s.log).Nodup :=
  ⟨(inv_reach h).legal, (inv_reach h).chain, (inv_reach h).nodup⟩

/-- No operation is ever stuck and none needs the others: a thread inside an operation finishes it within five steps of its own. -/
theorem llist_solo (s : Sys) (t : Tid) : ∃ n s', n ≤ 5 ∧ run s (List.replicate n (t, .go)) = some s' ∧ s'.loc t = .idle := by
  have hat : ∀ (s : Sys) (l : Loc), (s.at t l).loc t = l := by intro s l; simp [Sys.at]
  have hrun : ∀ (s s1 s2 : Sys) (n : Nat), step s t .go = some s1 → run s1 (List.replicate n (t, .go)) = some s2 →
      run s (List.replicate (n + 1) (t, .go)) = some s2 := by
    intro s s1 s2 n h1 h2; simp only [List.replicate_succ, run, h1, Option.bind_some, h2]
  -- an exchange against the value just read succeeds
  have pA : ∀ (s : Sys) b, s.loc t = .pushA b s.head → ∃ s', run s (List.replicate 2 (t, .go)) = some s' ∧ s'.loc t = .idle := by
    intro s b hl
    refine ⟨_, hrun s _ _ 1 (by simp only [step, hl]; rfl) (hrun _ _ _ 0 (by simp only [step, hat]; rw [if_pos (by rfl)]) rfl), hat _ _⟩
  have gA : ∀ (s : Sys), s.loc t = .grabA → ∃ s', run s (List.replicate 2 (t, .go)) = some s' ∧ s'.loc t = .idle := by
    intro s hl
    refine ⟨_, hrun s _ _ 1 (by simp only [step, hl]; rfl) (hrun _ _ _ 0 (by simp only [step, hat]; rw [if_pos (by rfl)]) rfl), hat _ _⟩
  have dA : ∀ (s : Sys), s.loc t = .delA s.head → ∃ n s', n ≤ 2 ∧ run s (List.replicate n (t, .go)) = some s' ∧ s'.loc t = .idle := by
    intro s hl
    by_cases h0 : s.head = 0
    · exact ⟨1, _, by omega, hrun s _ _ 0 (by simp only [step, hl]; rw [if_pos h0]) rfl, hat _ _⟩
    · exact ⟨2, _, by omega, hrun s _ _ 1 (by simp only [step, hl]; rw [if_neg h0])
        (hrun _ _ _ 0 (by simp only [step, hat]; rw [if_pos (by rfl)]) rfl), hat _ _⟩
  have hseen : ∀ s : Sys, (s.seen t).loc t = .delA (s.seen t).head := by
    intro s; unfold Sys.seen; split <;> simp [Sys.at, Sys.note]
  have dB : ∀ (s : Sys) e n, s.loc t = .delB e n → ∃ n s', n ≤ 3 ∧ run s (List.replicate n (t, .go)) = some s' ∧ s'.loc t = .idle := by
    intro s e n hl
    by_cases he : s.head = e
    · exact ⟨1, _, by omega, hrun s _ _ 0 (by simp only [step, hl]; rw [if_pos he]) rfl, hat _ _⟩
    · obtain ⟨n, s', hn, hr, hi⟩ := dA (s.seen t) (hseen s)
      exact ⟨n + 1, s', by omega, hrun s _ _ n (by simp only [step, hl]; rw [if_neg he]) hr, hi⟩
  have pB : ∀ (s : Sys) b e, s.loc t = .pushB b e → ∃ n s', n ≤ 3 ∧ run s (List.replicate n (t, .go)) = some s' ∧ s'.loc t = .idle := by
    intro s b e hl
    by_cases he : s.head = e
    · exact ⟨1, _, by omega, hrun s _ _ 0 (by simp only [step, hl]; rw [if_pos he]) rfl, hat _ _⟩
    · obtain ⟨s', hr, hi⟩ := pA (s.at t (.pushA b s.head)) b (hat _ _)
      exact ⟨3, s', by omega, hrun s _ _ 2 (by simp only [step, hl]; rw [if_neg he]) hr, hi⟩
  cases hl : s.loc t with
  | idle => exact ⟨0, s, by omega, rfl, hl⟩
  | pushA b e =>
    obtain ⟨n, s', hn, hr, hi⟩ := pB ({ s with next := upd s.next (b.getLastD 0) e }.at t (.pushB b e)) b e (hat _ _)
    exact ⟨n + 1, s', by omega, hrun s _ _ n (by simp only [step, hl]) hr, hi⟩
  | pushB b e =>
    obtain ⟨n, s', hn, hr, hi⟩ := pB s b e hl
    exact ⟨n, s', by omega, hr, hi⟩
  | grabA =>
    obtain ⟨s', hr, hi⟩ := gA s hl
    exact ⟨2, s', by omega, hr, hi⟩
  | grabB p =>
    by_cases he : s.head = p
    · exact ⟨1, _, by omega, hrun s _ _ 0 (by simp only [step, hl]; rw [if_pos he]) rfl, hat _ _⟩
    · obtain ⟨s', hr, hi⟩ := gA (s.at t .grabA) (hat _ _)
      exact ⟨3, s', by omega, hrun s _ _ 2 (by simp only [step, hl]; rw [if_neg he]) hr, hi⟩
  | delA e =>
    by_cases h0 : e = 0
    · exact ⟨1, _, by omega, hrun s _ _ 0 (by simp only [step, hl]; rw [if_pos h0]) rfl, hat _ _⟩
    · obtain ⟨n, s', hn, hr, hi⟩ := dB (s.at t (.delB e (s.next e))) e (s.next e) (hat _ _)
      exact ⟨n + 1, s', by omega, hrun s _ _ n (by simp only [step, hl]; rw [if_neg h0]) hr, hi⟩
  | delB e n =>
    obtain ⟨n, s', hn, hr, hi⟩ := dB s e n hl
    exact ⟨n, s', by omega, hr, hi⟩

theorem returned_perm : ∀ {l : List (Tid × Ev)}, Legal l → (∀ x ∈ content l, x ≠ 0) → (∀ x ∈ pushed l, x ≠ 0) →
    ∃ r, Returned l r ∧ (pushed l).Perm (r ++ content l) := by
  intro l
  induction l with
  | nil => exact fun _ _ _ => ⟨[], .nil, List.Perm.nil⟩
  | cons e l ih =>
    obtain ⟨t, e⟩ := e
    have cz : ∀ {l : List (Tid × Ev)}, (∀ x ∈ pushed l, x ≠ 0) → ∀ x ∈ content l, x ≠ 0 := by
      intro l
      induction l with
      | nil => exact fun _ _ h => absurd h List.not_mem_nil
      | cons e l ih =>
        obtain ⟨_, e⟩ := e
        cases e with
        | push b f =>
          intro h x hx
          rcases List.mem_append.1 hx with hx | hx
          · exact h x (List.mem_append_left _ hx)
          · exact ih (fun y hy => h y (List.mem_append_right _ hy)) x hx
        | grab p nx => exact fun _ _ h => absurd h List.not_mem_nil
        | del n => exact fun h x hx => ih h x (List.mem_of_mem_tail hx)
    cases e with
    | push b f =>
      intro hl hc hp
      have hp' : ∀ x ∈ pushed l, x ≠ 0 := fun x hx => hp x (List.mem_append_right _ hx)
      obtain ⟨r, hr, hperm⟩ := ih hl.2 (cz hp') hp'
      refine ⟨r, .push hr, ?_⟩
      show (b ++ pushed l).Perm (r ++ (b ++ content l))
      have h1 : (b ++ pushed l).Perm (b ++ (r ++ content l)) := List.Perm.append_left b hperm
      refine h1.trans ?_
      rw [← List.append_assoc, ← List.append_assoc]
      exact List.Perm.append_right _ List.perm_append_comm
    | grab p nx =>
      intro hl hc hp
      obtain ⟨r, hr, hperm⟩ := ih hl.2 (cz hp) hp
      refine ⟨content l ++ r, .grab hl.1 hr, ?_⟩
      show (pushed l).Perm (content l ++ r ++ [])
      rw [List.append_nil]
      exact hperm.trans List.perm_append_comm
    | del n =>
      intro hl hc hp
      obtain ⟨r, hr, hperm⟩ := ih hl.2 (cz hp) hp
      have hl1 : n = (content l).headD 0 := hl.1
      have hz : ∀ x ∈ content l, x ≠ 0 := cz hp
      show ∃ r', Returned ((t, .del n) :: l) r' ∧ (pushed l).Perm (r' ++ (content l).tail)
      generalize content l = C at hl1 hz hperm ⊢
      cases C with
      | nil =>
        have e : n = 0 := hl1
        subst e
        exact ⟨r, .none hr, hperm⟩
      | cons a L =>
        have e : n = a := hl1
        subst e
        refine ⟨n :: r, .del (hz n (by simp)) hr, ?_⟩
        refine hperm.trans ?_
        show (r ++ n :: L).Perm (n :: (r ++ L))
        exact List.perm_middle

theorem pushed_nonzero {reuse : Bool} {s : Sys} (h : Reach reuse s) : ∀ x ∈ pushed s.log, x ≠ 0 := by
  induction h with
  | init next => exact fun _ h => absurd h List.not_mem_nil
  | @step s s' t a hr ok hs ih =>
    have hinv := inv_reach hr
    unfold step at hs
    have note0 : ∀ (s : Sys) u, (∀ x ∈ pushed s.log, x ≠ 0) → ∀ x ∈ pushed (s.seen u).log, x ≠ 0 := by
      intro s u h; unfold Sys.seen; split <;> exact h
    split at hs
    · split at hs <;> cases hs; exact ih
    · cases hs; exact ih
    · rename_i b e hloc
      split at hs
      · cases hs
        intro x hx
        rcases List.mem_append.1 hx with hx | hx
        · have := hinv.bout t x
          rw [hloc] at this
          exact (this hx).1
        · exact ih x hx
      · cases hs; exact ih
    · cases hs; exact ih
    · cases hs; exact ih
    · split at hs <;> cases hs <;> exact ih
    · cases hs; exact note0 _ _ ih
    · split at hs <;> cases hs <;> exact ih
    · split at hs <;> cases hs
      · exact ih
      · exact note0 _ _ ih
    · cases hs

/-- C20: nothing is lost and nothing is duplicated. In every interleaving the nodes pushed, counted with multiplicity, are exactly the
nodes handed out together with those still on the list. -/
theorem llist_conserves {reuse : Bool} {s : Sys} (h : Reach reuse s) :
    ∃ r, Returned s.log r ∧ (pushed s.log).Perm (r ++ content s.log) :=
  returned_perm (inv_reach h).legal (fun x hx => pushed_nonzero h x ((inv_reach h).sub x hx)) (pushed_nonzero h)

theorem content_pushes {l1 l2 : List (Tid × Ev)} (h : ∀ e ∈ l2, ∃ b f, e.2 = .push b f) : ∃ x, content (l2 ++ l1) = x ++ content l1 := by
  induction l2 with
  | nil => exact ⟨[], rfl⟩
  | cons e l2 ih =>
    obtain ⟨x, hx⟩ := ih fun e he => h e (List.mem_cons_of_mem _ he)
    obtain ⟨b, f, he⟩ := h e (by simp)
    obtain ⟨t, e⟩ := e
    cases he
    exact ⟨b ++ x, by show b ++ content (l2 ++ l1) = _; rw [hx, List.append_assoc]⟩

/-- C20: a batch stays together and in order: the first grab after a push (with only pushes in between) hands the batch out as one
contiguous run, in front of the nodes pushed before it and behind those pushed after it. -/
theorem llist_batch_order {reuse : Bool} {s : Sys} (h : Reach reuse s) {l l1 l2 : List (Tid × Ev)} {t u : Tid} {b : List Nat} {f : Bool}
    {p : Nat} {nx : Nat → Nat} (hlog : s.log = l ++ (t, .grab p nx) :: (l2 ++ (u, .push b f) :: l1))
    (h2 : ∀ e ∈ l2, ∃ b f, e.2 = .push b f) : ∃ x, Chain nx p (x ++ (b ++ content l1)) := by
  have hl := (inv_reach h).legal
  rw [hlog] at hl
  have drop : ∀ (l : List (Tid × Ev)) {m}, Legal (l ++ m) → Legal m := by
    intro l
    induction l with
    | nil => exact fun h => h
    | cons e l ih =>
      obtain ⟨_, e⟩ := e
      intro m hm
      cases e <;> exact ih hm.2
  obtain ⟨x, hx⟩ := content_pushes (l1 := (u, .push b f) :: l1) h2
  have := (drop l hl).1
  rw [hx] at this
  exact ⟨x, this⟩

/-- C20: nodes handed out stay untouched: a step writes no link but those of the batch its own thread is pushing. -/
theorem llist_writes_own {s s' : Sys} {t : Tid} {a : Act} (hs : step s t a = some s') (x : Nat) (hx : s'.next x ≠ s.next x) :
    x ∈ (s'.loc t).batch ∨ ∃ e, s.loc t = .pushA [] e := by
  unfold step at hs
  have same : ∀ (s : Sys) u, (s.seen u).next = s.next := by intro s u; unfold Sys.seen; split <;> rfl
  split at hs
  · rename_i b hloc
    split at hs
    · cases hs
    · cases hs
      left
      show x ∈ (if t = t then Loc.pushA b s.head else s.loc t).batch
      rw [if_pos rfl]
      show x ∈ b
      apply Classical.byContradiction
      intro hn
      exact hx (linkUp_frame b s.next x hn)
  · rename_i b e hloc
    cases hs
    by_cases hb : b = []
    · right; exact ⟨e, by rw [hloc, hb]⟩
    left
    show x ∈ (if t = t then Loc.pushB b e else s.loc t).batch
    rw [if_pos rfl]
    show x ∈ b
    have : x = b.getLastD 0 := by
      apply Classical.byContradiction
      intro hn
      apply hx
      show upd _ _ _ x = _
      rw [upd, if_neg hn]
    rw [this]; exact getLast_mem' hb
  · split at hs <;> cases hs <;> exact absurd rfl hx
  · cases hs; exact absurd rfl hx
  · cases hs; exact absurd rfl hx
  · split at hs <;> cases hs <;> exact absurd rfl hx
  · cases hs; rw [same] at hx; exact absurd rfl hx
  · split at hs <;> cases hs <;> exact absurd rfl hx
  · split at hs <;> cases hs
    · exact absurd rfl hx
    · rw [same] at hx; exact absurd rfl hx
  · cases hs

/-- A log without the memories of the grabs. -/
def brief (l : List (Tid × Ev)) : List (Tid × List Nat) :=
  l.map fun e => (e.1, match e.2 with | .push b _ => 1 :: b | .grab p _ => [2, p] | .del n => [3, n])

/-- Removing single nodes while nodes are reused is not safe: thread 0 stops before its exchange, thread 1 takes nodes 1 and 2 and pushes
1 again; thread 0 then puts node 2, which thread 1 owns, back on the list, and it is handed out a second time. -/
theorem llist_del_reuse_violated :
    (run (init fun _ => 0) [(0, .push [1, 2]), (0, .go), (0, .go), (0, .del), (0, .go), (1, .del), (1, .go), (1, .go), (1, .del), (1, .go),
      (1, .go), (1, .push [1]), (1, .go), (1, .go), (0, .go), (0, .del), (0, .go), (0, .go)]).map (fun s => brief s.log) =
    some [(0, [3, 2]), (0, [3, 1]), (1, [1, 1]), (1, [3, 2]), (1, [3, 1]), (0, [1, 1, 2])] := by decide

/-! Two pushes race, the loser retries; a third thread grabs. -/
example : (run (init fun _ => 0) [(0, .push [1, 2]), (1, .push [3]), (0, .go), (1, .go), (1, .go), (0, .go), (0, .go), (0, .go),
    (2, .grab), (2, .go), (2, .go)]).map (fun s => (s.head, brief s.log, [s.next 1, s.next 2, s.next 3])) =
    some (0, [(2, [2, 1]), (0, [1, 1, 2]), (1, [1, 3])], [2, 3, 0]) := by decide

example : ∃ s, Reach true s ∧ content s.log = [1, 2] := by
  refine ⟨_, .step (a := .go) (t := 0) (.step (a := .go) (t := 0) (.step (a := .push [1, 2]) (t := 0) (.init fun _ => 0) ?_ rfl) trivial rfl)
    trivial rfl, rfl⟩
  exact ⟨by decide, fun x hx => ⟨by rintro rfl; simp at hx, by simp [init, content], fun u => by simp [init, Loc.batch], by simp⟩⟩

end Bfdev.Llist
