import Verif.Digest.Consts
import Verif.Digest.Md5
/-!
C59: the digests are the standard ones, for every message and every way of cutting it into updates.
-/
namespace Bfdev.Digest

/-- Initialise a context that holds anything, feed it the chunks one after the other, and write the digest to `hash` at `p`. -/
def session (iv : List W32) (update : Ctx → List Byte → Nat → Option Ctx) (finish : Ctx → List Byte → Nat → Option (Ctx × List Byte)) (ctx : Ctx)
    (chunks : List (List Byte)) (hash : List Byte) (p : Nat) : Option (List Byte) := do
  let ctx ← chunks.foldlM (fun c d => update c d d.length) (init iv ctx)
  let (_, hash) ← finish ctx hash p
  return hash

theorem inv_init (comp : List W32 → List Byte → List W32) (iv : List W32) {ctx : Ctx} (h : ctx.buffer.length = 64) : Inv comp iv (init iv ctx) [] :=
  ⟨rfl, h, rfl, rfl⟩

theorem updates_ok {comp : List W32 → List Byte → List W32} {iv : List W32} {update : Ctx → List Byte → Nat → Option Ctx} {chunks : List (List Byte)}
    (hu : ∀ ctx msg, ∀ d ∈ chunks, Inv comp iv ctx msg → ∃ ctx', update ctx d d.length = some ctx' ∧ Inv comp iv ctx' (msg ++ d)) (ctx : Ctx) (msg : List Byte)
    (h : Inv comp iv ctx msg) : ∃ ctx', chunks.foldlM (fun c d => update c d d.length) ctx = some ctx' ∧ Inv comp iv ctx' (msg ++ chunks.flatten) := by
  induction chunks generalizing ctx msg with
  | nil => exact ⟨ctx, rfl, by simpa using h⟩
  | cons d ds ih =>
    obtain ⟨c1, h1, h2⟩ := hu ctx msg d List.mem_cons_self h
    obtain ⟨c2, h3, h4⟩ := ih (fun ctx msg d hd => hu ctx msg d (List.mem_cons_of_mem _ hd)) c1 _ h2
    refine ⟨c2, ?_, ?_⟩
    · rw [List.foldlM_cons, h1]
      exact h3
    · rw [List.flatten_cons, ← List.append_assoc]
      exact h4

theorem sha_ok {n words : Nat} {comp : List W32 → List Byte → List W32} {func : List W32 → List Byte → Nat → Nat → Option (List W32)} (hf : Folds n comp func)
    {iv : List W32} (hiv : iv.length = n) (hwn : words ≤ n) {ctx : Ctx} (hb : ctx.buffer.length = 64) {chunks : List (List Byte)} (hc : ∀ d ∈ chunks, d.length < 2 ^ 63)
    (hash : List Byte) (p : Nat) (hp : p + 4 * words ≤ hash.length) :
    session iv (shaUpdate func) (fun ctx hash p => do
      let ctx ← shaFinalize func ctx
      let hash ← shaFinish words ctx hash p
      return (ctx, hash)) ctx chunks hash p = some (hash.take p ++ Spec.digest comp iv Spec.be64 Spec.beBytes words chunks.flatten ++ hash.drop (p + 4 * words)) := by
  obtain ⟨c1, h1, h2⟩ := updates_ok (fun ctx msg d hd hi => shaUpdate_inv hf hiv hi (hc d hd)) _ [] (inv_init comp iv hb)
  rw [List.nil_append] at h2
  obtain ⟨c2, h3, -, h4⟩ := shaFinalize_ok hf hiv h2
  have h5 := out_ok Swab.setBe32 Spec.beBytes (fun _ => rfl) (fun m p v h => setBe32_ok v h) c2.state hash p words
    (by rw [h4]; exact Nat.le_trans hwn (Nat.le_of_eq (foldl_length hf.1 _ _ hiv).symm)) hp
  unfold session shaFinish
  simp only [Option.bind_eq_bind]
  simp only [Option.bind_eq_bind] at h5
  rw [h1, Option.bind_some, h3, Option.bind_some, h5]
  unfold Spec.digest
  rw [h4]
  rfl

/-- C59, SHA-1. Whatever the context held, whatever the chunks (each a buffer that can exist), `init`, any number of updates and `finish` write exactly the SHA-1 digest
of the concatenation, to the 20 bytes at `hash + p`, without touching anything else. -/
theorem sha1_correct {ctx : Ctx} (hb : ctx.buffer.length = 64) {chunks : List (List Byte)} (hc : ∀ d ∈ chunks, d.length < 2 ^ 63) (hash : List Byte) (p : Nat)
    (hp : p + 20 ≤ hash.length) :
    session sha1Iv sha1Update sha1Finish ctx chunks hash p = some (hash.take p ++ Spec.sha1 chunks.flatten ++ hash.drop (p + 20)) :=
  sha_ok sha1Block_folds rfl (by decide) hb hc hash p hp

/-- C59. The constants of SHA-224 and SHA-256 in the source are the ones the standard derives from the roots of the first 64 primes. -/
theorem sha2_constants : Spec.Constants (fun t => sha2K.getD t 0) sha224Iv sha256Iv := constants_ok

/-- C59, SHA-224, likewise. -/
theorem sha224_correct {ctx : Ctx} (hb : ctx.buffer.length = 64) {chunks : List (List Byte)} (hc : ∀ d ∈ chunks, d.length < 2 ^ 63) (hash : List Byte) (p : Nat)
    (hp : p + 28 ≤ hash.length) :
    session sha224Iv sha2Update sha224Finish ctx chunks hash p =
      some (hash.take p ++ Spec.sha224 (fun t => sha2K.getD t 0) sha224Iv chunks.flatten ++ hash.drop (p + 28)) :=
  sha_ok sha2Block_folds rfl (by decide) hb hc hash p hp

/-- C59, SHA-256, likewise. -/
theorem sha256_correct {ctx : Ctx} (hb : ctx.buffer.length = 64) {chunks : List (List Byte)} (hc : ∀ d ∈ chunks, d.length < 2 ^ 63) (hash : List Byte) (p : Nat)
    (hp : p + 32 ≤ hash.length) :
    session sha256Iv sha2Update sha256Finish ctx chunks hash p =
      some (hash.take p ++ Spec.sha256 (fun t => sha2K.getD t 0) sha256Iv chunks.flatten ++ hash.drop (p + 32)) :=
  sha_ok sha2Block_folds rfl (by decide) hb hc hash p hp

/-- C59, MD5, likewise. -/
theorem md5_correct {ctx : Ctx} (hb : ctx.buffer.length = 64) (chunks : List (List Byte)) (hash : List Byte) (p : Nat) (hp : p + 16 ≤ hash.length) :
    session md5Iv md5Update md5Finish ctx chunks hash p = some (hash.take p ++ Spec.md5 chunks.flatten ++ hash.drop (p + 16)) := by
  obtain ⟨c1, h1, h2⟩ := updates_ok (chunks := chunks) (fun ctx msg d hd hi => md5Update_inv md5Block_folds rfl hi) _ [] (inv_init Spec.md5Comp md5Iv hb)
  rw [List.nil_append] at h2
  obtain ⟨c2, h3, -, h4⟩ := md5Finalize_ok md5Block_folds rfl h2
  have h5 := out_ok Swab.setLe32 Spec.leBytes (fun _ => rfl) (fun m p v h => setLe32_ok v h) c2.state hash p 4
    (by rw [h4]; exact Nat.le_of_eq (foldl_length md5Block_folds.1 _ _ rfl).symm) hp
  unfold session md5Finish md5Final md5Update
  simp only [Option.bind_eq_bind]
  simp only [Option.bind_eq_bind] at h5
  rw [h1, Option.bind_some, h3, Option.bind_some, h5]
  unfold Spec.md5 Spec.digest
  rw [h4]
  rfl

/-- C59. Two ways of cutting the same message give the same digest, from any two contexts. -/
theorem digest_chunks {ctx ctx' : Ctx} (hb : ctx.buffer.length = 64) (hb' : ctx'.buffer.length = 64) {chunks chunks' : List (List Byte)}
    (hc : ∀ d ∈ chunks, d.length < 2 ^ 63) (hc' : ∀ d ∈ chunks', d.length < 2 ^ 63) (he : chunks.flatten = chunks'.flatten) (hash : List Byte) (p : Nat)
    (hp : p + 32 ≤ hash.length) :
    session md5Iv md5Update md5Finish ctx chunks hash p = session md5Iv md5Update md5Finish ctx' chunks' hash p ∧
    session sha1Iv sha1Update sha1Finish ctx chunks hash p = session sha1Iv sha1Update sha1Finish ctx' chunks' hash p ∧
    session sha224Iv sha2Update sha224Finish ctx chunks hash p = session sha224Iv sha2Update sha224Finish ctx' chunks' hash p ∧
    session sha256Iv sha2Update sha256Finish ctx chunks hash p = session sha256Iv sha2Update sha256Finish ctx' chunks' hash p := by
  refine ⟨?_, ?_, ?_, ?_⟩
  · rw [md5_correct hb _ _ _ (by omega), md5_correct hb' _ _ _ (by omega), he]
  · rw [sha1_correct hb hc _ _ (by omega), sha1_correct hb' hc' _ _ (by omega), he]
  · rw [sha224_correct hb hc _ _ (by omega), sha224_correct hb' hc' _ _ (by omega), he]
  · rw [sha256_correct hb hc _ _ hp, sha256_correct hb' hc' _ _ hp, he]

/-- A context before initialisation. -/
def garbage : Ctx := ⟨[], List.replicate 64 0xaa, 12345⟩
/-- "abc" in two chunks. -/
def abc : List (List Byte) := [[0x61], [0x62, 0x63]]

example : garbage.buffer.length = 64 ∧ (∀ d ∈ abc, d.length < 2 ^ 63) ∧ abc.flatten = [0x61, 0x62, 0x63] := by decide
/- The published test vectors for "abc" (FIPS 180-4 examples, RFC 1321 appendix A.5) come out of the model. -/
example : session md5Iv md5Update md5Finish garbage abc (List.replicate 16 0) 0 =
    some [0x90, 0x01, 0x50, 0x98, 0x3c, 0xd2, 0x4f, 0xb0, 0xd6, 0x96, 0x3f, 0x7d, 0x28, 0xe1, 0x7f, 0x72] := by decide +kernel
example : session sha1Iv sha1Update sha1Finish garbage abc (List.replicate 20 0) 0 =
    some [0xa9, 0x99, 0x3e, 0x36, 0x47, 0x06, 0x81, 0x6a, 0xba, 0x3e, 0x25, 0x71, 0x78, 0x50, 0xc2, 0x6c, 0x9c, 0xd0, 0xd8, 0x9d] := by decide +kernel
example : session sha256Iv sha2Update sha256Finish garbage abc (List.replicate 32 0) 0 =
    some [0xba, 0x78, 0x16, 0xbf, 0x8f, 0x01, 0xcf, 0xea, 0x41, 0x41, 0x40, 0xde, 0x5d, 0xae, 0x22, 0x23, 0xb0, 0x03, 0x61, 0xa3, 0x96, 0x17, 0x7a, 0x9c, 0xb4, 0x10,
      0xff, 0x61, 0xf2, 0x00, 0x15, 0xad] := by decide +kernel

end Bfdev.Digest
