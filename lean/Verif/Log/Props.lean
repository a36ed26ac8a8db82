import Verif.Log.Spec
import Verif.Scnprintf.Props
/-!
C90: log messages.
-/
namespace Bfdev.Log
open Bfdev.Scnprintf (vscnprintf stored)

/-- The buffer contains the beginning of `T`. -/
structure Has (m : Msg) (T : Bytes) : Prop where
  size : m.buff.length = 512
  len : m.length = (T.take 511).length
  text : m.buff.take m.length = T.take 511

theorem vscn_nat (n k : Nat) (hn : 0 < n) (hn2 : n ≤ 512) (hk : k < 2 ^ 31) : (vscnprintf (BitVec.ofNat 64 n) (BitVec.ofNat 32 k)).toNat = Nat.min k (n - 1) := by
  have hl : ((BitVec.ofNat 32 k).signExtend 64).toNat = k := by
    rw [BitVec.signExtend_eq_setWidth_of_msb_false (by rw [BitVec.msb_eq_false_iff_two_mul_lt]; simp; omega)]
    simp; omega
  have hn' : (BitVec.ofNat 64 n).toNat = n := by rw [BitVec.toNat_ofNat]; omega
  rw [vscnprintf, if_neg (by intro h; have := congrArg BitVec.toNat h; rw [hn'] at this; simp at this; omega), hl, hn']
  split
  · rw [BitVec.toNat_ofNat]
    have : Nat.min k (n - 1) = k := Nat.min_eq_left (by omega)
    omega
  · rw [BitVec.toNat_setWidth, BitVec.toNat_sub_of_le (by rw [BitVec.le_def, hn']; simp; omega), hn']
    have : Nat.min k (n - 1) = n - 1 := Nat.min_eq_right (by omega)
    rw [this]
    simp
    omega

theorem append_has {m : Msg} {T text : Bytes} (h : Has m T) (ht : text.length < 2 ^ 31) :
    ∃ m', append m text = some m' ∧ m'.level = m.level ∧ Has m' (T ++ text) ∧ m'.buff[m'.length]? = some 0 := by
  have hlen := h.len
  rw [List.length_take] at hlen
  have hst : (stored (512 - m.length) text).length = Nat.min (511 - m.length) text.length := by
    rw [stored, List.length_take]; show Nat.min _ _ = _; congr 1; omega
  have hmin : Nat.min (511 - m.length) text.length ≤ 511 - m.length := Nat.min_le_left ..
  have hv := vscn_nat (512 - m.length) text.length (by omega) (by omega) ht
  have hv2 : Nat.min text.length (512 - m.length - 1) = Nat.min (511 - m.length) text.length := by
    rw [show 512 - m.length - 1 = 511 - m.length by omega]; exact Nat.min_comm ..
  rw [hv2] at hv
  have hsz := h.size
  refine ⟨{ m with buff := m.buff.take m.length ++ stored (512 - m.length) text ++ [0] ++ m.buff.drop (m.length + (stored (512 - m.length) text).length + 1), length := m.length + (vscnprintf (BitVec.ofNat 64 (512 - m.length)) (BitVec.ofNat 32 text.length)).toNat },
    if_pos ⟨by rw [hst, h.size]; omega, by omega⟩, rfl, ⟨?_, ?_, ?_⟩, ?_⟩
  · simp only [List.length_append, List.length_take, List.length_drop, List.length_cons, List.length_nil, hst]
    omega
  · dsimp only
    rw [hv]
    simp only [List.length_take, List.length_append]
    show m.length + min (511 - m.length) text.length = min 511 (T.length + text.length)
    omega
  · dsimp only
    rw [hv]
    have l1 : (m.buff.take m.length ++ stored (512 - m.length) text).length = m.length + Nat.min (511 - m.length) text.length := by
      rw [List.length_append, List.length_take, hst]; omega
    rw [List.append_assoc (_ ++ _), ← l1, List.take_left', h.text, List.take_append]
    · congr 1
      rw [stored]
      by_cases hT : T.length ≤ 511
      · congr 1; omega
      · rw [show 512 - m.length - 1 = 0 by omega, show 511 - T.length = 0 by omega]
    · rfl
  · dsimp only
    rw [hv]
    have l1 : (m.buff.take m.length ++ stored (512 - m.length) text).length = m.length + Nat.min (511 - m.length) text.length := by
      rw [List.length_append, List.length_take, hst]; omega
    rw [List.append_assoc (_ ++ _), ← l1, List.getElem?_append_right (Nat.le_refl _), Nat.sub_self]
    rfl

theorem levelLoop_spec : ∀ (headers : List UInt8) (rest : Bytes) (level : Nat), (¬ ∃ h r, rest = 1 :: h :: r) →
    levelLoop level ((headers.flatMap fun h => [1, h]) ++ rest) = ((digits headers).getLast?.getD level, rest) := by
  intro headers
  induction headers with
  | nil =>
    intro rest level hr
    show levelLoop level rest = (level, rest)
    match rest with
    | [] => rfl
    | [a] => rfl
    | a :: b :: r =>
      rw [levelLoop, if_neg]
      rintro rfl
      exact hr ⟨b, r, rfl⟩
  | cons h headers ih =>
    intro rest level hr
    show levelLoop level (1 :: h :: ((headers.flatMap fun h => [1, h]) ++ rest)) = _
    rw [levelLoop, if_pos rfl, ih rest _ hr]
    congr 1
    unfold digits
    rw [List.filter_cons]
    by_cases hd : 48 ≤ h.toNat ∧ h.toNat ≤ 57
    · have e : (48 : UInt8) ≤ h ∧ h ≤ 57 := ⟨hd.1, hd.2⟩
      have e2 : (h - 48).toNat = h.toNat - 48 := UInt8.toNat_sub_of_le _ _ e.1
      rw [if_pos e, if_pos (decide_eq_true hd), List.map_cons, List.getLast?_cons, e2]
      rfl
    · rw [if_neg (show ¬ ((48 : UInt8) ≤ h ∧ h ≤ 57) from hd), if_neg (by rw [decide_eq_false hd]; simp)]

theorem splits_exists (fmt : Bytes) : ∃ headers rest, Splits fmt headers rest := by
  generalize hn : fmt.length = n
  induction n using Nat.strongRecOn generalizing fmt with
  | ind n ih =>
    by_cases h : ∃ a r, fmt = 1 :: a :: r
    · obtain ⟨a, r, rfl⟩ := h
      simp only [List.length_cons] at hn
      obtain ⟨hs, rest, h1, h2⟩ := ih r.length (by omega) r rfl
      exact ⟨a :: hs, rest, by rw [h1]; rfl, h2⟩
    · exact ⟨[], fmt, rfl, h⟩

theorem name_get {l : Nat} (h : l ≤ 8) : levelName[l]? = some (nameOf l) := by
  have : ∀ l : Fin 9, levelName[l.val]? = some (nameOf l.val) := by decide +kernel
  exact this ⟨l, by omega⟩
theorem color_get {l : Nat} (h : l ≤ 8) : levelColor[l]? = some (colorOf l) := by
  have : ∀ l : Fin 9, levelColor[l.val]? = some (colorOf l.val) := by decide +kernel
  exact this ⟨l, by omega⟩
theorem name_len {l : Nat} (h : l ≤ 8) : (lit "[" ++ lit (nameOf l) ++ lit "] ").length < 2 ^ 31 := by
  have : ∀ l : Fin 9, (lit "[" ++ lit (nameOf l.val) ++ lit "] ").length < 100 := by decide +kernel
  exact Nat.lt_trans (this ⟨l, by omega⟩) (by decide)
theorem color_len {l : Nat} (h : l ≤ 8) : ([27] ++ lit "[" ++ lit (toString (colorOf l)) ++ lit "m").length < 2 ^ 31 := by
  have : ∀ l : Fin 9, ([27] ++ lit "[" ++ lit (toString (colorOf l.val)) ++ lit "m").length < 100 := by decide +kernel
  exact Nat.lt_trans (this ⟨l, by omega⟩) (by decide)

/-- C90. A message whose level is above the record level of the logger is dropped: the call returns 0 whatever the writer would do. Every other message is handed to the
writer once, with its level and a terminated text in the buffer: name of the level, colour, the formatted rest of the format, colour reset, cut to 511 bytes; the call
returns what the writer returns. The default level of the logger must be one of the nine levels, unless nothing is to be put before the text. -/
theorem log_partial (garbage : Bytes) (log : Option Logger) (fmt : Bytes) (render : Bytes → Bytes) (headers : List UInt8) (rest : Bytes) (hs : Splits fmt headers rest)
    (hg : garbage.length = 512) (ht : (render rest).length < 2 ^ 31)
    (hd : (log.getD defaultLogger).defaultLevel ≤ 8 ∨ ((log.getD defaultLogger).color = false ∧ (log.getD defaultLogger).level = false)) :
    ((log.getD defaultLogger).recordLevel < chosen (log.getD defaultLogger) headers → ∀ write, core garbage log fmt render write = some 0) ∧
    (chosen (log.getD defaultLogger) headers ≤ (log.getD defaultLogger).recordLevel → ∃ buff, (∀ write, core garbage log fmt render write =
        some (write (chosen (log.getD defaultLogger) headers) buff ((whole (log.getD defaultLogger) (chosen (log.getD defaultLogger) headers) (render rest)).take 511).length)) ∧
      buff.length = 512 ∧
      buff.take ((whole (log.getD defaultLogger) (chosen (log.getD defaultLogger) headers) (render rest)).take 511).length =
        (whole (log.getD defaultLogger) (chosen (log.getD defaultLogger) headers) (render rest)).take 511 ∧
      buff[((whole (log.getD defaultLogger) (chosen (log.getD defaultLogger) headers) (render rest)).take 511).length]? = some 0) := by
  generalize hL : log.getD defaultLogger = L at *
  have hlev : logLevel fmt = ((digits headers).getLast?.getD 8, rest) := by rw [logLevel, hs.1, levelLoop_spec headers rest 8 hs.2]
  have hch : (if (digits headers).getLast?.getD 8 ≥ 8 then L.defaultLevel else (digits headers).getLast?.getD 8) = chosen L headers := by
    unfold chosen
    cases (digits headers).getLast? with
    | none => rfl
    | some d =>
      simp only [Option.getD_some]
      by_cases h : d ≤ 7
      · rw [if_neg (by omega), if_pos h]
      · rw [if_pos (by omega), if_neg h]
  have hle : chosen L headers ≤ 8 ∨ (L.color = false ∧ L.level = false) := by
    rcases hd with h | h
    · left
      unfold chosen
      split
      · exact h
      · split <;> omega
    · exact Or.inr h
  generalize chosen L headers = l at *
  constructor
  · intro hr write
    rw [core, hlev]
    simp only [emit]
    rw [hL, hch, if_pos hr]
    rfl
  · intro hr
    have h0 : Has ⟨l, garbage, 0⟩ [] := ⟨hg, rfl, rfl⟩
    obtain ⟨m1, e1, v1, h1⟩ : ∃ m', putLevel L ⟨l, garbage, 0⟩ = some m' ∧ m'.level = l ∧ Has m' (if L.level then lit "[" ++ lit (nameOf l) ++ lit "] " else []) := by
      rw [putLevel]
      cases hv : L.level with
      | false => exact ⟨_, rfl, rfl, h0⟩
      | true =>
        have hl8 : l ≤ 8 := by
          rcases hle with h | h
          · exact h
          · rw [hv] at h; exact absurd h.2 (by simp)
        obtain ⟨m', a1, a2, a3, -⟩ := append_has h0 (name_len hl8)
        refine ⟨m', ?_, a2, by simpa using a3⟩
        simp only [Bool.not_true, Bool.false_eq_true, if_false]
        rw [name_get hl8, Option.bind_some, a1]
    obtain ⟨m2, e2, v2, h2⟩ : ∃ m', putColor L m1 = some m' ∧ m'.level = l ∧
        Has m' ((if L.level then lit "[" ++ lit (nameOf l) ++ lit "] " else []) ++ (if L.color then [27] ++ lit "[" ++ lit (toString (colorOf l)) ++ lit "m" else [])) := by
      rw [putColor]
      cases hv : L.color with
      | false => exact ⟨_, rfl, v1, by simpa using h1⟩
      | true =>
        have hl8 : l ≤ 8 := by
          rcases hle with h | h
          · exact h
          · rw [hv] at h; exact absurd h.1 (by simp)
        obtain ⟨m', a1, a2, a3, -⟩ := append_has h1 (color_len hl8)
        refine ⟨m', ?_, by rw [a2, v1], a3⟩
        simp only [Bool.not_true, Bool.false_eq_true, if_false]
        rw [v1, color_get hl8, Option.bind_some, a1]
    obtain ⟨m3, e3, v3, h3, z3⟩ := append_has h2 ht
    obtain ⟨m4, e4, v4, h4, z4⟩ : ∃ m', putReset L m3 = some m' ∧ m'.level = l ∧ Has m' (whole L l (render rest)) ∧ m'.buff[m'.length]? = some 0 := by
      rw [putReset]
      unfold whole
      cases hv : L.color with
      | false =>
        rw [hv] at h3
        exact ⟨_, rfl, by rw [v3, v2], by simpa using h3, z3⟩
      | true =>
        obtain ⟨m', a1, a2, a3, a4⟩ := append_has (text := [27] ++ lit "[0m") h3 (by have : ([27] ++ lit "[0m").length < 100 := by decide +kernel
                                                                                     omega)
        rw [hv] at a3
        exact ⟨m', a1, by rw [a2, v3, v2], a3, a4⟩
    refine ⟨m4.buff, fun write => ?_, h4.size, ?_, ?_⟩
    · rw [core, hlev]
      simp only [emit]
      rw [hL, hch, if_neg (by omega), e1, Option.bind_some, e2, Option.bind_some, e3, Option.bind_some, e4, ← h4.len, ← v4]
      rfl
    · rw [← h4.len]; exact h4.text
    · rw [← h4.len]; exact z4

/-- C90 fails for loggers with a default level above 8: a message without a level reads behind the table of level names. -/
theorem log_violated (garbage : Bytes) : emit garbage (some ⟨9, 9, false, true⟩) 8 (lit "x") = none := rfl

/-- C90, a limit to be aware of: a message that fills the buffer loses the colour reset. -/
theorem reset_lost (level : Nat) (text : Bytes) (h : 511 ≤ text.length) : ∃ p, (whole ⟨8, 8, true, false⟩ level text).take 511 = ([27] ++ p ++ text).take 511 := by
  refine ⟨lit "[" ++ lit (toString (colorOf level)) ++ lit "m", ?_⟩
  have e : whole ⟨8, 8, true, false⟩ level text = ([27] ++ (lit "[" ++ lit (toString (colorOf level)) ++ lit "m") ++ text) ++ ([27] ++ lit "[0m") := by
    simp [whole, List.append_assoc]
  rw [e, List.take_append_of_le_length (by simp only [List.length_append]; omega)]

/-- C90: without a logger every message is written, with the name and the colour of its level. -/
theorem log_default (garbage : Bytes) (fmt : Bytes) (render : Bytes → Bytes) (headers : List UInt8) (rest : Bytes) (hs : Splits fmt headers rest)
    (hg : garbage.length = 512) (ht : (render rest).length < 2 ^ 31) (level : Nat) (hl : level = chosen ⟨8, 8, true, true⟩ headers) :
    ∃ buff len, (∀ write, core garbage none fmt render write = some (write level buff len)) ∧ buff.take len =
      (lit "[" ++ lit (nameOf level) ++ lit "] " ++ ([27] ++ lit "[" ++ lit (toString (colorOf level)) ++ lit "m") ++ render rest ++ ([27] ++ lit "[0m")).take 511 := by
  have h := (log_partial garbage none fmt render headers rest hs hg ht (Or.inl (by decide))).2
  have hc : chosen (Option.getD none defaultLogger) headers = level := hl.symm
  have hle : level ≤ 8 := by
    rw [hl]
    unfold chosen
    split
    · exact Nat.le_refl _
    · split
      · omega
      · exact Nat.le_refl _
  rw [hc] at h
  obtain ⟨buff, h1, _, h3, _⟩ := h hle
  exact ⟨buff, _, h1, h3⟩

/-- A message with two headers, the second one decisive. -/
example : Splits (lit "\x013\x017abc") [51, 55] (lit "abc") ∧ chosen defaultLogger [51, 55] = 7 := by
  refine ⟨⟨by decide +kernel, ?_⟩, by decide +kernel⟩
  rintro ⟨h, r, e⟩
  have : (lit "abc").head? = some 1 := by rw [e]; rfl
  revert this
  decide +kernel
example : (whole ⟨8, 8, true, true⟩ 3 (lit "disk full")) = lit "[error] " ++ [27] ++ lit "[33m" ++ lit "disk full" ++ [27] ++ lit "[0m" := by decide +kernel

end Bfdev.Log
