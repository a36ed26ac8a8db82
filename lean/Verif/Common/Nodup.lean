/-!
Small tactics for side goals about lists without repetitions: everything is reduced to counting.
-/
namespace Bfdev

theorem nd_nodup {X Y : List Nat} (h : X.Nodup) (hc : ∀ z, List.count z Y ≤ List.count z X) : Y.Nodup :=
  List.nodup_iff_count.2 (fun z => Nat.le_trans (hc z) (List.nodup_iff_count.1 h z))

theorem nd_mem {X Y : List Nat} {z : Nat} (h : X.Nodup) (hc : List.count z X ≤ 1 → List.count z Y = 0) : z ∉ Y :=
  List.count_eq_zero.1 (hc (List.nodup_iff_count.1 h z))

theorem nd_ne {z h : Nat} (hz : z ∉ [h]) : z ≠ h := fun e => hz (by simp [e])

/-- Prove that a list has no repetition because it rearranges a sublist of one without. -/
macro "ndn" h:term : tactic => `(tactic| (refine nd_nodup $h (fun z => ?_); simp only [List.flatten_cons, List.flatten_nil, List.count_append, List.count_cons, List.count_nil, beq_iff_eq, if_true]; omega))

/-- Prove non-membership, from a member elsewhere. -/
macro "ndm" h:term "," hz:term : tactic => `(tactic| (
  refine nd_mem $h (fun hh => ?_); have hz' := List.count_pos_iff.2 $hz;
  simp only [List.flatten_cons, List.flatten_nil, List.count_append, List.count_cons, List.count_nil, beq_iff_eq, if_true] at hh hz' ⊢; omega))

/-- Prove non-membership of a listed element. -/
macro "nds" h:term : tactic => `(tactic| (
  refine nd_mem $h (fun hh => ?_);
  simp only [List.flatten_cons, List.flatten_nil, List.count_append, List.count_cons, List.count_nil, beq_iff_eq, if_true] at hh ⊢; omega))

set_option hygiene false in
/-- All of the above, using hypotheses called `hnd` and `hz`. -/
macro "nd" : tactic => `(tactic| first | ndn hnd | ndm hnd, hz | nds hnd | (refine nd_ne ?_; first | ndm hnd, hz | nds hnd))

end Bfdev
