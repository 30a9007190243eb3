import Verif.Proof.Lookup
/-! # C16, C17, C18: lookups on arbitrary unit arrays -/
namespace Dawg.Props
open Dictionary

/-- A small hand-made dictionary used to show that hypotheses can be met: the root (offset 1) has a
child with label 1 at index 0 ^ 1 ^ 1 = 0, i.e. itself, and no value. -/
def loopDict : Dictionary := { units := [1024 + 1, 1] }

/-! ## C16 -/

/-- **C16** (whenever the calls return).  On every unit array and for every key, if `FindString`
returns `v` then `ContainsString` and `FindStringValue` return too; `v` is -1 or non-negative,
`ContainsString` is true iff `v` is not -1, and `FindStringValue` is true exactly then, storing `v`,
and leaves its output untouched otherwise.  (Missing from the full statement: on a malformed unit array
`ContainsString` may be true while `FindString` panics, see `C16_literal_counterexample`.) -/
theorem C16_findString_decides_partial (d : Dictionary) (key : List UInt8) (out v : Int)
    (h : d.findString key = .ok v) :
    (v = -1 ∨ 0 ≤ v) ∧
    d.containsString key = .ok (decide (v ≠ -1)) ∧
    d.findStringValue key out = .ok (if v = -1 then (false, out) else (true, v)) := by
  unfold findString at h
  unfold containsString findStringValue
  cases hf : d.followString key d.root with
  | error e => simp [hf] at h
  | ok r =>
    obtain ⟨ok, i, n⟩ := r
    simp only [hf, ok_bind] at h ⊢
    cases ok with
    | false => simp at h; subst h; simp
    | true =>
      simp only [Bool.not_true, Bool.false_eq_true, if_false] at h ⊢
      cases hv : d.hasValue i with
      | error e => simp [hv] at h
      | ok b =>
        cases b with
        | false => simp [hv] at h; subst h; simp
        | true =>
          simp only [hv, ok_bind, if_true] at h
          cases hval : d.value i with
          | error e => simp [hval] at h
          | ok w =>
            simp [hval] at h; subst h
            have h1 : ((w : Int) = -1) = False := by simp
            simp [h1]

/-- **C16** (converse).  If `ContainsString` returns false, `FindString` returns -1 and
`FindStringValue` returns false; if it returns true, `FindString` either returns a non-negative value
or panics reading it, and `FindStringValue` does the same; if it faults, so do the others. -/
theorem C16_containsString_decides_partial (d : Dictionary) (key : List UInt8) (out : Int) :
    (d.containsString key = .ok false →
      d.findString key = .ok (-1) ∧ d.findStringValue key out = .ok (false, out)) ∧
    (d.containsString key = .ok true →
      (∃ v : Nat, d.findString key = .ok v ∧ d.findStringValue key out = .ok (true, v)) ∨
      (d.findString key = .error .panic ∧ d.findStringValue key out = .error .panic)) ∧
    (∀ e, d.containsString key = .error e →
      d.findString key = .error e ∧ d.findStringValue key out = .error e) := by
  unfold findString containsString findStringValue
  cases hf : d.followString key d.root with
  | error e => simp
  | ok r =>
    obtain ⟨ok, i, n⟩ := r
    cases ok with
    | false => simp
    | true =>
      cases hv : d.hasValue i with
      | error e => simp [hv]
      | ok b =>
        cases b with
        | false => simp [hv]
        | true =>
          have : d.value i ≠ .error .hang := by
            unfold value
            intro h
            cases h1 : rd d.units i with
            | error e =>
              have := @rd_not_hang _ d.units i
              simp only [h1, error_bind] at h
              rw [h1] at this; simp_all
            | ok u =>
              simp only [h1, ok_bind] at h
              cases h2 : rd d.units (i ^^^ dictOffset u) with
              | error e =>
                have := @rd_not_hang _ d.units (i ^^^ dictOffset u)
                simp [h2] at h; rw [h2] at this; simp_all
              | ok u => simp [h2] at h
          cases hval : d.value i with
          | error e => cases e <;> simp_all
          | ok w => simpa [hv, hval] using ⟨w, rfl⟩

/-- The literal reading of C16, without "whenever the calls return", is false: on a malformed
dictionary `ContainsString` can be true while `FindString` panics. -/
theorem C16_literal_counterexample :
    ∃ d : Dictionary, d.containsString [] = .ok true ∧ d.findString [] = .error .panic :=
  ⟨{ units := [hasLeafBit + 4096] }, by decide, by decide⟩

example : ∃ d : Dictionary, d.findString [] = .ok 7 :=
  ⟨{ units := [hasLeafBit + 1024, 7 + isLeafBit] }, by decide⟩

/-! ## C17 -/

/-- **C17** The `…Len` entry points with `length ≤ len(key)` (including non-positive lengths) are the
plain ones on the prefix of that length (`toNat` of a negative length is 0). -/
theorem C17_len_variants (d : Dictionary) (key : List UInt8) (length : Int)
    (h : length ≤ key.length) (index : Nat) (out : Int) :
    d.followStringLen key length index = d.followString (key.take length.toNat) index ∧
    d.containsStringLen key length = d.containsString (key.take length.toNat) ∧
    d.findStringLen key length = d.findString (key.take length.toNat) ∧
    d.findStringLenValue key length out = d.findStringValue (key.take length.toNat) out := by
  have hf := fun i => followStringLen_eq d key length i h
  simp only [containsStringLen, findStringLen, findStringLenValue, containsString, findString,
    findStringValue, hf, and_self]

example : (3 : Int) ≤ ([1, 2, 3, 4] : List UInt8).length ∧ (-2 : Int) ≤ ([1] : List UInt8).length := by decide

/-! ## C18 -/

/-- The longest-prefix reading of `FollowStringCount`: `m` bytes of the key can be followed from `i`,
one after another, and lead to `j`. -/
inductive Path (d : Dictionary) : Nat → List UInt8 → Nat → Prop
  | nil (i) : Path d i [] i
  | cons {i j k c cs} : d.follow c i = .ok (some j) → Path d j cs k → Path d i (c :: cs) k

/-- **C18** (composition) `FollowString(a+b)` is `FollowString(a)` followed by `FollowString(b)` from
the index reached; indices and counters are the same. -/
theorem C18_follow_append (d : Dictionary) (a b : List UInt8) (i : Nat) :
    d.followString (a ++ b) i =
      (do let (ok, j, n) ← d.followString a i
          if ok then
            let (ok', k, m) ← d.followString b j
            return (ok', k, n + m)
          else return (false, j, n)) := followString_append d a b i

/-- **C18** (counting) If `FollowStringCount` returns, the count is the number of bytes of the key
that were followed, the index is where they lead, it succeeds exactly when this is the whole key, and
otherwise the next byte cannot be followed. -/
theorem C18_count_is_longest_prefix (d : Dictionary) (key : List UInt8) (i j n : Nat) (ok : Bool)
    (h : d.followString key i = .ok (ok, j, n)) :
    n ≤ key.length ∧ Path d i (key.take n) j ∧
    (ok = true → n = key.length) ∧
    (ok = false → ∃ c rest, key.drop n = c :: rest ∧ d.follow c j = .ok none) := by
  induction key generalizing i n with
  | nil => simp [followString] at h; obtain ⟨rfl, rfl, rfl⟩ := h; simp; exact .nil _
  | cons c key ih =>
    simp only [followString] at h
    cases hf : d.follow c i with
    | error e => simp [hf] at h
    | ok o =>
      cases o with
      | none =>
        simp [hf] at h; obtain ⟨rfl, rfl, rfl⟩ := h
        simp; exact ⟨.nil _, hf⟩
      | some k =>
        simp only [hf, ok_bind] at h
        cases hr : d.followString key k with
        | error e => simp [hr] at h
        | ok r =>
          obtain ⟨ok', j', n'⟩ := r
          simp [hr] at h
          obtain ⟨rfl, rfl, rfl⟩ := h
          obtain ⟨h1, h2, h3, h4⟩ := ih k n' hr
          refine ⟨by simp; omega, ?_, ?_, ?_⟩
          · simp; exact .cons hf h2
          · intro ho; simp [h3 ho]
          · intro ho; simpa using h4 ho

example : loopDict.followString [1, 1, 5] 0 = .error .panic ∧ loopDict.followString [1, 1, 0] 0 = .ok (false, 0, 2) := by
  decide

end Dawg.Props
