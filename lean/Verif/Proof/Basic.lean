import Verif.Model.Base
/-! # Simplification lemmas for the fault monad -/
namespace Dawg

@[simp] theorem ok_bind {α β : Type} (a : α) (f : α → Go β) : ((.ok a : Go α) >>= f) = f a := rfl
@[simp] theorem error_bind {α β : Type} (e : Fault) (f : α → Go β) :
    ((.error e : Go α) >>= f) = .error e := rfl
@[simp] theorem pure_eq_ok {α : Type} (a : α) : (pure a : Go α) = .ok a := rfl
@[simp] theorem map_ok {α β : Type} (f : α → β) (a : α) : (f <$> (.ok a : Go α)) = .ok (f a) := rfl

theorem bind_eq_ok {α β : Type} {x : Go α} {f : α → Go β} {b : β} :
    (x >>= f) = .ok b ↔ ∃ a, x = .ok a ∧ f a = .ok b := by
  cases x <;> simp

theorem rd_eq_ok {α : Type} {l : List α} {i : Nat} {a : α} : rd l i = .ok a ↔ l[i]? = some a := by
  unfold rd; cases l[i]? <;> simp

theorem rd_lt {α : Type} {l : List α} {i : Nat} (h : i < l.length) : rd l i = .ok l[i] := by
  simp [rd_eq_ok, h]

theorem rd_some {α : Type} {l : List α} {i : Nat} {a : α} (h : l[i]? = some a) : rd l i = .ok a :=
  rd_eq_ok.2 h

theorem rd_ge {α : Type} {l : List α} {i : Nat} (h : l.length ≤ i) : rd l i = .error .panic := by
  simp [rd, List.getElem?_eq_none h]

theorem rd_not_hang {α : Type} {l : List α} {i : Nat} : rd l i ≠ .error .hang := by
  unfold rd; cases l[i]? <;> simp

theorem wr_lt {α : Type} {l : List α} {i : Nat} {a : α} (h : i < l.length) :
    wr l i a = .ok (l.set i a) := by simp [wr, h]

theorem wr_eq_ok {α : Type} {l l' : List α} {i : Nat} {a : α} :
    wr l i a = .ok l' ↔ i < l.length ∧ l' = l.set i a := by
  unfold wr; split
  · simp [*, eq_comm]
  · simp [*]

theorem md_pos {x n : Nat} (h : 0 < n) : md x n = .ok (x % n) := by
  simp [md, Nat.ne_of_gt h]

theorem u32_lt (n : Nat) : u32 n < 4294967296 := Nat.mod_lt _ (by decide)
theorem u32_of_lt {n : Nat} (h : n < 4294967296) : u32 n = n := Nat.mod_eq_of_lt h

end Dawg
