import Verif.Proof.Basic
import Verif.Model.Serialize
/-! # Serialisation lemmas -/
namespace Dawg

@[simp] theorem putU32_length (n : Nat) : (putU32 n).length = 4 := rfl

theorem getU32_putU32 (n : Nat) :
    getU32 (UInt8.ofNat n) (UInt8.ofNat (n / 256)) (UInt8.ofNat (n / 65536)) (UInt8.ofNat (n / 16777216))
      = n % 4294967296 := by
  simp only [getU32, UInt8.toNat_ofNat']
  omega

theorem bytesOfUnits_length (us : List Nat) : (bytesOfUnits us).length = 4 * us.length := by
  induction us with
  | nil => rfl
  | cons u us ih =>
    have : bytesOfUnits (u :: us) = putU32 u ++ bytesOfUnits us := rfl
    simp [this, ih]; omega

theorem bytesOfGuideUnits_length (us : List GuideUnit) :
    (bytesOfGuideUnits us).length = 2 * us.length := by
  induction us with
  | nil => rfl
  | cons u us ih =>
    have : bytesOfGuideUnits (u :: us) = [u.child, u.sibling] ++ bytesOfGuideUnits us := rfl
    simp [this, ih]; omega

theorem unitsOfBytes_bytesOfUnits (us : List Nat) (h : ∀ u ∈ us, u < 4294967296) :
    unitsOfBytes (bytesOfUnits us) = us := by
  induction us with
  | nil => rfl
  | cons u us ih =>
    have e : bytesOfUnits (u :: us) = putU32 u ++ bytesOfUnits us := rfl
    rw [e]
    simp only [putU32, List.cons_append, List.nil_append, unitsOfBytes, getU32_putU32]
    rw [ih (fun x hx => h x (List.mem_cons_of_mem _ hx)), Nat.mod_eq_of_lt (h u List.mem_cons_self)]

theorem guideUnitsOfBytes_bytesOf (us : List GuideUnit) :
    guideUnitsOfBytes (bytesOfGuideUnits us) = us := by
  induction us with
  | nil => rfl
  | cons u us ih =>
    have e : bytesOfGuideUnits (u :: us) = [u.child, u.sibling] ++ bytesOfGuideUnits us := rfl
    rw [e]
    simp [guideUnitsOfBytes, ih]

theorem readFull_append (a b : List UInt8) : readFull a.length (a ++ b) = (some a, b) := by
  simp [readFull]

theorem readFull_short {n : Nat} {r : List UInt8} (h : r.length < n) : readFull n r = (none, []) := by
  simp [readFull, Nat.not_le.2 h]

/-- Header and body of a written object are read back, leaving the rest of the stream. -/
theorem readUnits_write {α : Type} (k : Nat) (dec : List UInt8 → List α) (size : Nat)
    (hs : size < 4294967296) (body rest : List UInt8) (hb : body.length = k * size) :
    readUnits k dec (putU32 (u32 size) ++ body ++ rest) = (some (dec body), rest) := by
  have h4 : readFull 4 (putU32 (u32 size) ++ body ++ rest) = (some (putU32 (u32 size)), body ++ rest) := by
    have := readFull_append (putU32 (u32 size)) (body ++ rest)
    simpa [List.append_assoc] using this
  have hg : getU32 (UInt8.ofNat (u32 size)) (UInt8.ofNat (u32 size / 256)) (UInt8.ofNat (u32 size / 65536))
      (UInt8.ofNat (u32 size / 16777216)) = size := by
    rw [getU32_putU32, u32_of_lt hs, Nat.mod_eq_of_lt hs]
  unfold readUnits
  rw [h4]
  simp only [putU32, hg, ← hb, readFull_append]

/-- A strict prefix of a written object is not read. -/
theorem readUnits_truncated {α : Type} (k : Nat) (dec : List UInt8 → List α) (size : Nat)
    (hs : size < 4294967296) (body p : List UInt8) (hb : body.length = k * size)
    (hp : p <+: putU32 (u32 size) ++ body) (hlt : p.length < (putU32 (u32 size) ++ body).length) :
    readUnits k dec p = (none, []) := by
  by_cases h4 : p.length < 4
  · simp [readUnits, readFull_short h4]
  · obtain ⟨q, hq⟩ : ∃ q, p = putU32 (u32 size) ++ q := by
      have h1 : putU32 (u32 size) <+: p := by
        apply List.prefix_of_prefix_length_le (List.prefix_append _ body) hp
        simp; omega
      obtain ⟨q, hq⟩ := h1
      exact ⟨q, hq.symm⟩
    subst hq
    have hlen : q.length < k * size := by simp at hlt; omega
    have h4' := readFull_append (putU32 (u32 size)) q
    have hg : getU32 (UInt8.ofNat (u32 size)) (UInt8.ofNat (u32 size / 256)) (UInt8.ofNat (u32 size / 65536))
        (UInt8.ofNat (u32 size / 16777216)) = size := by
      rw [getU32_putU32, u32_of_lt hs, Nat.mod_eq_of_lt hs]
    unfold readUnits
    simp only [putU32_length] at h4'
    rw [h4']
    simp only [putU32, hg, readFull_short hlen]

/-- `Index.Read` in terms of the common reader. -/
theorem Index.read_eq (x : Index) (r : List UInt8) :
    (Index.read x r).2 = ((readUnits 4 unitsOfBytes r).1.isSome, (readUnits 4 unitsOfBytes r).2) ∧
    ∀ us, (readUnits 4 unitsOfBytes r).1 = some us → (Index.read x r).1 = { units := us } := by
  unfold Index.read readUnits
  split
  · split <;> simp_all
  · simp

end Dawg
