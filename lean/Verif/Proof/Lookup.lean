import Verif.Proof.Basic
import Verif.Model.Dictionary
/-! # Lookups on arbitrary dictionaries -/
namespace Dawg
namespace Dictionary

theorem followLenLoop_eq (d : Dictionary) (key : List UInt8) (n pos index : Nat)
    (h : pos + n ≤ key.length) :
    d.followLenLoop key n pos index = d.followString ((key.drop pos).take n) index := by
  induction n generalizing pos index with
  | zero => simp [followLenLoop, followString]
  | succ n ih =>
    have hp : pos < key.length := by omega
    rw [followLenLoop, rd_lt hp]
    have : (key.drop pos).take (n+1) = key[pos] :: (key.drop (pos+1)).take n := by
      rw [List.drop_eq_getElem_cons hp, List.take_succ_cons]
    rw [this, followString]
    simp only [ok_bind]
    congr 1
    funext o
    cases o with
    | none => rfl
    | some next => simp only [ih (pos+1) next (by omega)]

theorem followStringLen_eq (d : Dictionary) (key : List UInt8) (length : Int) (index : Nat)
    (h : length ≤ key.length) :
    d.followStringLen key length index = d.followString (key.take length.toNat) index := by
  unfold followStringLen
  rw [followLenLoop_eq _ _ _ _ _ (by omega)]
  simp

theorem followString_append (d : Dictionary) (a b : List UInt8) (i : Nat) :
    d.followString (a ++ b) i =
      (do let (ok, j, n) ← d.followString a i
          if ok then
            let (ok', k, m) ← d.followString b j
            return (ok', k, n + m)
          else return (false, j, n)) := by
  induction a generalizing i with
  | nil =>
    simp only [followString, List.nil_append, ok_bind, if_true, Nat.zero_add]
    cases d.followString b i <;> simp
  | cons c a ih =>
    simp only [List.cons_append, followString]
    cases hf : d.follow c i with
    | error e => simp
    | ok o =>
      cases o with
      | none => simp
      | some j =>
        simp only [ok_bind, ih]
        cases h1 : d.followString a j with
        | error e => simp
        | ok r =>
          obtain ⟨ok, k, n⟩ := r
          cases ok <;> simp
          cases d.followString b k <;> simp; omega

end Dictionary
end Dawg
